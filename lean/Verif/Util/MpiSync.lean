import Verif.Util.MpiGather

/-!
# C111 without buffers

`MPI_Send` may wait until the receiver takes the message. To hand a message over is to put it into the queue and to take it out at once, so what was shown of all orders of events is true then as well. Here: nobody
waits for ever, whichever messages are buffered.
-/

namespace Verif.Mpi

/-- From the state `s` the receiver gets `out` from the messages in the order in which they are sent. -/
inductive InOrder (B : Nat) (out : List Byte) : RState → List (Chan × Msg) → Prop
  | done : InOrder B out (.done out) []
  | step (s : RState) (c : Chan) (m : Msg) (l : List (Chan × Msg)) : want s = some c → InOrder B out (recv B s m) l → InOrder B out s ((c, m) :: l)

theorem chunks_inOrder (B : Nat) (rem : Nat) (hr : rem ≤ B) : ∀ (q : Nat) (d buf out : List Byte), buf.length = B → d.length = q * B + rem →
    InOrder B (out ++ d) (.chunk q rem buf out) (chunks B rem q d) := by
  intro q
  induction q with
  | zero =>
    intro d buf out hb hd
    unfold chunks
    refine .step _ _ _ _ rfl ?_
    have hd' : d.length = rem := by omega
    have : d.take rem = d := List.take_of_length_le (by omega)
    rw [this]
    have e : recv B (.chunk 0 rem buf out) (.data d) = .done (out ++ d) := by
      have h0 : recvInto rem buf d = some (d ++ buf.drop d.length) := by
        unfold recvInto
        rw [if_neg (by omega)]
      simp only [recv, h0]
      rw [← hd', List.take_left']
      rfl
    rw [e]
    exact .done
  | succ q ih =>
    intro d buf out hb hd
    unfold chunks
    refine .step _ _ _ _ rfl ?_
    have hl : (d.take B).length = B := by
      rw [List.length_take]
      have : B ≤ d.length := by rw [hd, Nat.succ_mul]; omega
      omega
    have e : recv B (.chunk (q + 1) rem buf out) (.data (d.take B)) = .chunk q rem (d.take B) (out ++ d.take B) := by
      have h0 : recvInto B buf (d.take B) = some (d.take B) := by
        unfold recvInto
        rw [if_neg (by omega), hl, List.drop_of_length_le (by omega), List.append_nil]
      simp only [recv, h0]
      rw [List.take_of_length_le (l := d.take B) (by omega)]
    rw [e]
    have := ih (d.drop B) (d.take B) (out ++ d.take B) hl (by rw [List.length_drop, hd, Nat.succ_mul]; omega)
    rwa [List.append_assoc, List.take_append_drop] at this

theorem sends_inOrder (B : Nat) (hB : 0 < B) (d buf : List Byte) (hb : buf.length = B) : InOrder B d (.waitFlag buf) (sends B d) := by
  unfold sends
  refine .step _ _ _ _ rfl (.step _ _ _ _ rfl ?_)
  have := chunks_inOrder B (d.length % B) (Nat.mod_lt _ hB).le (d.length / B) d buf [] hb (by rw [Nat.mul_comm]; exact (Nat.div_add_mod _ _).symm)
  simpa [recv] using this

/-- The queues `f` hold, in the order sent, some messages, and after them come those of `l`. -/
def Queued (B : Nat) (out : List Byte) (s : RState) (f : Chan → List Msg) (l : List (Chan × Msg)) : Prop := ∃ p, f = onChan p ∧ InOrder B out s (p ++ l)

theorem onChan_append (a b : List (Chan × Msg)) (c : Chan) : onChan (a ++ b) c = onChan a c ++ onChan b c := by simp [onChan]

theorem Queued.send {B : Nat} {out : List Byte} {s : RState} {f : Chan → List Msg} {l : List (Chan × Msg)} {c : Chan} {m : Msg} (h : Queued B out s f ((c, m) :: l)) :
    Queued B out s (Function.update f c (f c ++ [m])) l := by
  obtain ⟨p, rfl, h2⟩ := h
  refine ⟨p ++ [(c, m)], ?_, by simpa using h2⟩
  funext c'
  rw [onChan_append]
  by_cases hc : c' = c
  · subst hc; simp [onChan]
  · rw [Function.update_of_ne hc]
    simp [onChan, Ne.symm hc]

theorem Queued.recv {B : Nat} {out : List Byte} {s : RState} {f : Chan → List Msg} {l : List (Chan × Msg)} {c : Chan} {m : Msg} {r : List Msg} (h : Queued B out s f l)
    (hw : want s = some c) (hf : f c = m :: r) : Queued B out (Mpi.recv B s m) (Function.update f c r) l := by
  obtain ⟨p, rfl, h2⟩ := h
  cases p with
  | nil => simp [onChan] at hf
  | cons x p =>
    obtain ⟨c', m'⟩ := x
    cases h2 with
    | step _ _ _ _ h3 h4 =>
      rw [h3] at hw
      cases hw
      rw [onChan_cons, if_pos rfl] at hf
      cases hf
      exact ⟨p, update_onChan _ _ _, h4⟩

/-- The receiver has everything, or it can take a message, or the next message to be sent is the one it waits for. -/
theorem Queued.cases {B : Nat} {out : List Byte} {s : RState} {f : Chan → List Msg} {l : List (Chan × Msg)} (h : Queued B out s f l) :
    (s = .done out ∧ l = []) ∨ (∃ c m r, want s = some c ∧ f c = m :: r) ∨ ∃ c m l', l = (c, m) :: l' ∧ want s = some c := by
  obtain ⟨p, rfl, h2⟩ := h
  cases p with
  | nil =>
    cases h2 with
    | done => exact Or.inl ⟨rfl, rfl⟩
    | step _ c m l' h3 _ => exact Or.inr (Or.inr ⟨c, m, l', rfl, h3⟩)
  | cons x p =>
    obtain ⟨c, m⟩ := x
    cases h2 with
    | step _ _ _ _ h3 _ => exact Or.inr (Or.inl ⟨c, m, onChan p c, h3, by simp [onChan_cons]⟩)

/-- The messages of the first process for process `i`. -/
def Net.mine (N : Net) (i : Nat) : List (Chan × Msg) := (N.prog.filter fun x => x.1 = i).map Prod.snd

theorem queued_step {B : Nat} {d : Nat → List Byte} {P : Nat → Prop} {N N' : Net} (h : ∀ i, P i → Queued B (d i) (N.st i) (N.q i) (N.mine i)) (hs : Step B N N') :
    ∀ i, P i → Queued B (d i) (N'.st i) (N'.q i) (N'.mine i) := by
  cases hs with
  | send i c m p q st =>
    intro j hj
    have := h j hj
    by_cases hji : j = i
    · subst hji
      have e : Net.mine ⟨(j, c, m) :: p, q, st⟩ j = (c, m) :: Net.mine ⟨p, Function.update q j (Function.update (q j) c (q j c ++ [m])), st⟩ j := by simp [Net.mine]
      rw [e] at this
      simpa using this.send
    · have e : Net.mine ⟨(i, c, m) :: p, q, st⟩ j = Net.mine ⟨p, Function.update q i (Function.update (q i) c (q i c ++ [m])), st⟩ j := by simp [Net.mine, Ne.symm hji]
      rw [e] at this
      simpa [Function.update_of_ne hji] using this
  | recv i c m r p q st h1 h2 =>
    intro j hj
    have := h j hj
    by_cases hji : j = i
    · subst hji
      simpa [Net.mine] using this.recv h1 h2
    · simpa [Net.mine, Function.update_of_ne hji] using this

/-- **C111** (`scatterVector` without buffers). In every state that can be reached, whichever messages are buffered: either all is done, or a process can take a message which has been sent, or the message which the first process is
about to send goes to a process which is waiting for it, so that it can be handed over. -/
theorem C111_scatter_unbuffered {α : Type*} (B k : Nat) (hB : 0 < B) (enc : List α → List Byte) (buf : Nat → List Byte) (hbuf : ∀ i, (buf i).length = B) (v : List α) (N : Net)
    (hN : Relation.ReflTransGen (Step B) (scatter B k enc buf v) N) :
    (N.prog = [] ∧ ∀ i, 1 ≤ i → i < k → ∃ out, N.st i = .done out) ∨ (∃ i c m r, want (N.st i) = some c ∧ N.q i c = m :: r) ∨
      ∃ i c m p, N.prog = (i, c, m) :: p ∧ want (N.st i) = some c := by
  have hg := good_scatter B k hB enc buf hbuf v
  have h0 : ∀ i, 1 ≤ i ∧ i < k → Queued B (enc (piece k v i)) ((scatter B k enc buf v).st i) ((scatter B k enc buf v).q i) ((scatter B k enc buf v).mine i) := by
    intro i hi
    refine ⟨[], by funext c; simp [scatter, onChan], ?_⟩
    have hlen : (cut v (blockSizes v.length k)).length = k := by rw [length_cut, length_blockSizes]
    have hkeys : (((List.range k).zip (cut v (blockSizes v.length k))).tail.map Prod.fst) = (List.range k).tail := by
      rw [List.map_tail, List.map_fst_zip (by simp [hlen])]
    have hnd : (((List.range k).zip (cut v (blockSizes v.length k))).tail.map Prod.fst).Nodup := by
      rw [hkeys]
      exact List.nodup_range.sublist (List.tail_sublist _)
    have hm : (i, piece k v i) ∈ ((List.range k).zip (cut v (blockSizes v.length k))).tail := by
      have h1 : i - 1 < ((List.range k).zip (cut v (blockSizes v.length k))).tail.length := by
        simp [hlen]
        omega
      have h2 := List.getElem_mem h1
      have h3 : ((List.range k).zip (cut v (blockSizes v.length k))).tail[i - 1] = (i, piece k v i) := by
        have e : i - 1 + 1 = i := by omega
        rw [List.getElem_tail, List.getElem_zip]
        simp only [e, List.getElem_range, piece]
        rw [List.getD_eq_getElem _ _ (by omega)]
      rwa [h3] at h2
    have : (scatter B k enc buf v).mine i = sends B (enc (piece k v i)) := by
      unfold Net.mine scatter
      simp only
      rw [filter_flatMap_sends B enc i _ hnd, find?_of_mem i _ _ hnd hm]
    rw [this, List.nil_append]
    exact sends_inOrder B hB _ _ (hbuf i)
  have hq : ∀ i, 1 ≤ i ∧ i < k → Queued B (enc (piece k v i)) (N.st i) (N.q i) (N.mine i) := by
    induction hN with
    | refl => exact h0
    | tail _ h2 ih => exact queued_step ih h2
  have hg' := hg.steps hN
  cases hp : N.prog with
  | nil =>
    by_cases h : ∃ i, (1 ≤ i ∧ i < k) ∧ ∃ c, want (N.st i) = some c
    · obtain ⟨i, hi, c, hc⟩ := h
      rcases (hq i hi).cases with ⟨h1, -⟩ | ⟨c, m, r, h1, h2⟩ | ⟨c, m, l, h1, -⟩
      · rw [h1] at hc; cases hc
      · exact Or.inr (Or.inl ⟨i, c, m, r, h1, h2⟩)
      · simp [Net.mine, hp] at h1
    · refine Or.inl ⟨rfl, fun i h1 h2 => ?_⟩
      have hw : want (N.st i) = none := by
        cases hw : want (N.st i) with
        | none => rfl
        | some c => exact absurd ⟨i, ⟨h1, h2⟩, c, hw⟩ h
      exact ⟨_, (((hg' i).1 ⟨h1, h2⟩).fin hw).1⟩
  | cons x p =>
    obtain ⟨i, c, m⟩ := x
    have hi : 1 ≤ i ∧ i < k := by
      by_contra hc
      have := congrFun ((hg' i).2 hc) c
      simp [Net.future, hp, onChan] at this
    have e : N.mine i = (c, m) :: (p.filter fun x => x.1 = i).map Prod.snd := by simp [Net.mine, hp]
    rcases (hq i hi).cases with ⟨-, h1⟩ | ⟨c, m, r, h1, h2⟩ | ⟨c', m', l, h1, h2⟩
    · rw [e] at h1; cases h1
    · exact Or.inr (Or.inl ⟨i, c, m, r, h1, h2⟩)
    · rw [e] at h1
      cases h1
      exact Or.inr (Or.inr ⟨i, c, m, p, rfl, h2⟩)

/-! ## `gatherVector` -/

/-- The first process and the one it is receiving from, and the later ones, which wait. -/
structure GQueued (B k : Nat) (d buf : Nat → List Byte) (N : GNet) : Prop where
  now : N.cur < k → Queued B (d N.cur) N.st (N.q N.cur) (N.prog N.cur)
  later : ∀ i, N.cur < i → i < k → Queued B (d i) (.waitFlag (buf i)) (N.q i) (N.prog i)

theorem GQueued.step {B k : Nat} {d buf : Nat → List Byte} {N N' : GNet} (h : GQueued B k d buf N) (hs : GStep B k buf N N') : GQueued B k d buf N' := by
  cases hs with
  | send i c m l _ hp =>
    refine ⟨fun hc => ?_, fun j h1 h2 => ?_⟩
    · have := h.now hc
      by_cases hi : N.cur = i
      · subst hi
        rw [hp] at this
        simpa using this.send
      · simpa [Function.update_of_ne hi] using this
    · have := h.later j h1 h2
      by_cases hi : j = i
      · subst hi
        rw [hp] at this
        simpa using this.send
      · simpa [Function.update_of_ne hi] using this
  | recv c m r _ hcur hw hq =>
    refine ⟨fun hc => ?_, fun j h1 h2 => ?_⟩
    · simpa using (h.now hcur).recv hw hq
    · have h1' : N.cur < j := h1
      have := h.later j h1 h2
      simpa [Function.update_of_ne (show j ≠ N.cur by omega)] using this
  | next out _ hcur hst =>
    exact ⟨fun hc => h.later (N.cur + 1) (Nat.lt_succ_self _) hc, fun j h1 h2 => h.later j (lt_trans (Nat.lt_succ_self _) h1) h2⟩

/-- **C111** (`gatherVector` without buffers). In every state that can be reached, whichever messages are buffered: either all is done, or the first process can go on to the next one, or it can take a message which has been sent, or the
process it is receiving from is about to send the message it waits for. -/
theorem C111_gather_unbuffered {α : Type*} (B k : Nat) (hB : 0 < B) (enc : List α → List Byte) (buf : Nat → List Byte) (hbuf : ∀ i, (buf i).length = B) (part : Nat → List α) (N : GNet)
    (hN : Relation.ReflTransGen (GStep B k buf) (gather B k enc buf part) N) :
    (k ≤ N.cur ∧ ∀ i, N.prog i = []) ∨ (N.cur < k ∧ ∃ out, N.st = .done out) ∨ (N.cur < k ∧ ∃ c m r, want N.st = some c ∧ N.q N.cur c = m :: r) ∨
      (N.cur < k ∧ ∃ c m l, N.prog N.cur = (c, m) :: l ∧ want N.st = some c) := by
  have hg := (good_gather B k hB enc buf hbuf part).steps hN
  have h0 : GQueued B k (fun i => enc (part i)) buf (gather B k enc buf part) := by
    have hl : ∀ i, 1 ≤ i → i < k → Queued B (enc (part i)) (.waitFlag (buf i)) ((gather B k enc buf part).q i) ((gather B k enc buf part).prog i) := by
      intro i h1 h2
      refine ⟨[], by funext c; simp [gather, onChan], ?_⟩
      have : (gather B k enc buf part).prog i = sends B (enc (part i)) := by simp [gather, h1, h2]
      rw [this, List.nil_append]
      exact sends_inOrder B hB _ _ (hbuf i)
    exact ⟨fun h => hl 1 (le_refl _) h, fun i h1 h2 => hl i (le_of_lt h1) h2⟩
  have hq : GQueued B k (fun i => enc (part i)) buf N := by
    clear hg
    induction hN with
    | refl => exact h0
    | tail _ h2 ih => exact ih.step h2
  by_cases hc : N.cur < k
  · rcases (hq.now hc).cases with ⟨h1, -⟩ | ⟨c, m, r, h1, h2⟩ | ⟨c, m, l, h1, h2⟩
    · exact Or.inr (Or.inl ⟨hc, _, h1⟩)
    · exact Or.inr (Or.inr (Or.inl ⟨hc, c, m, r, h1, h2⟩))
    · exact Or.inr (Or.inr (Or.inr ⟨hc, c, m, l, h1, h2⟩))
  · refine Or.inl ⟨by omega, fun i => ?_⟩
    cases hi : N.prog i with
    | nil => rfl
    | cons x l =>
      obtain ⟨c, m⟩ := x
      have := congrFun (hg.before i (by omega)) c
      simp [GNet.future, hi, onChan_cons] at this

/-- At the start of a scatter over three processes nothing has been sent, but the process to which the first message goes is waiting for it. -/
example : ∃ i c m p, (scatter 2 3 id (fun _ => [0, 0]) ([1, 2, 3, 4, 5] : List Byte)).prog = (i, c, m) :: p ∧ want ((scatter 2 3 id (fun _ => [0, 0]) ([1, 2, 3, 4, 5] : List Byte)).st i) = some c :=
  ⟨1, .flag, .flag, _, rfl, rfl⟩

end Verif.Mpi
