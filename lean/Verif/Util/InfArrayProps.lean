import Verif.Util.InfArray

/-!
# C30: `InfArray` as a sequence

Specification: a list. `Rep N s l` says that the object `s` represents `l`.
-/

namespace Verif.Util.InfArray

open Verif

variable {T : Type*}

/-- `s` is in order and represents the list `l`. -/
structure Rep (N : Nat) (s : InfArray T) (l : List T) : Prop where
  size : s.size = l.length
  small : l.length ≤ N → s.data = .arr ∧ s.vec = [] ∧ ∀ i, i < l.length → l[i]? = some (s.arr i)
  large : N < l.length → s.data = .vec ∧ s.vec = l

theorem Rep.get {N : Nat} {s : InfArray T} {l : List T} (h : Rep N s l) {i : Nat} (hi : i < l.length) :
    get N s i = .ok l[i] := by
  unfold InfArray.get
  by_cases hN : l.length ≤ N
  · obtain ⟨h1, _, h3⟩ := h.small hN
    have := h3 i hi
    rw [List.getElem?_eq_getElem hi] at this
    rw [h1]
    simp only [if_pos (show i < N by omega)]
    simp at this
    rw [this]
  · obtain ⟨h1, h2⟩ := h.large (by omega)
    rw [h1, h2]
    simp [List.getElem?_eq_getElem hi]

theorem Rep.read {N : Nat} {s : InfArray T} {l : List T} (h : Rep N s l) {n : Nat} (hn : n ≤ l.length) :
    read N s n = .ok (l.take n) := by
  induction n with
  | zero => rfl
  | succ n ih =>
    rw [InfArray.read, ih (by omega), Res.bind_ok, h.get (by omega), Res.bind_ok]
    rw [List.take_succ_eq_append_getElem (by omega)]

theorem Rep.elems {N : Nat} {s : InfArray T} {l : List T} (h : Rep N s l) : elems N s = .ok l := by
  unfold InfArray.elems
  rw [h.size, h.read (Nat.le_refl _), List.take_length]

theorem Rep.set {N : Nat} {s : InfArray T} {l : List T} (h : Rep N s l) {i : Nat} (hi : i < l.length) (v : T) :
    ∃ s', set N s i v = .ok s' ∧ Rep N s' (l.set i v) := by
  unfold InfArray.set
  by_cases hN : l.length ≤ N
  · obtain ⟨h1, h2, h3⟩ := h.small hN
    rw [h1]
    simp only [if_pos (show i < N by omega)]
    refine ⟨_, rfl, by simp [h.size], fun _ => ⟨rfl, h2, ?_⟩, fun hl => by simp at hl; omega⟩
    intro j hj
    simp only [List.length_set] at hj
    by_cases e : i = j
    · subst e; simp [hi]
    · rw [List.getElem?_set_ne e, h3 j hj]
      simp only [Function.update_of_ne (Ne.symm e)]
  · obtain ⟨h1, h2⟩ := h.large (by omega)
    rw [h1]
    simp only [h2, if_pos hi]
    exact ⟨_, rfl, by simp [h.size], fun hl => by simp at hl; omega, fun _ => ⟨rfl, rfl⟩⟩

theorem Rep.fillN {N : Nat} {s : InfArray T} {l : List T} (h : Rep N s l) (v : T) {n : Nat} (hn : n ≤ l.length) :
    ∃ s', fillN N s v n = .ok s' ∧ Rep N s' (List.replicate n v ++ l.drop n) := by
  induction n with
  | zero => exact ⟨s, rfl, by simpa using h⟩
  | succ n ih =>
    obtain ⟨s1, e1, r1⟩ := ih (by omega)
    obtain ⟨s2, e2, r2⟩ := r1.set (i := n) (by simp; omega) v
    refine ⟨s2, by rw [InfArray.fillN, e1, Res.bind_ok, e2], ?_⟩
    convert r2 using 1
    rw [List.set_append_right _ _ (by simp), List.length_replicate, Nat.sub_self,
      List.drop_eq_getElem_cons (show n < l.length by omega), List.set_cons_zero, List.replicate_succ']
    simp

theorem rep_empty (N : Nat) (junk : Nat → T) : Rep N (empty junk) [] :=
  ⟨rfl, fun _ => ⟨rfl, rfl, by simp⟩, fun h => by simp at h⟩

theorem rep_ofSize [Inhabited T] (N : Nat) (junk : Nat → T) (n : Nat) :
    ∃ l, l.length = n ∧ Rep N (ofSize N junk n) l ∧ (N < n → l = List.replicate n default) := by
  unfold ofSize
  by_cases h : n ≤ N
  · rw [if_pos h]
    refine ⟨(List.range n).map junk, by simp, ⟨by simp, fun _ => ⟨rfl, rfl, ?_⟩, fun hl => by simp at hl; omega⟩,
      fun hl => by omega⟩
    intro i hi
    simp only [List.length_map, List.length_range] at hi
    simp [hi]
  · rw [if_neg h]
    exact ⟨List.replicate n default, by simp, ⟨by simp, fun hl => by simp at hl; omega, fun _ => ⟨rfl, rfl⟩⟩,
      fun _ => rfl⟩

theorem rep_initLoop {N : Nat} {s : InfArray T} (p l q : List T) (h : Rep N s (p ++ q)) (hl : l.length = q.length) :
    ∃ s', initLoop N s p.length l = .ok s' ∧ Rep N s' (p ++ l) := by
  induction l generalizing s p q with
  | nil =>
    have : q = [] := by simpa using hl.symm
    subst this
    exact ⟨s, rfl, h⟩
  | cons x l ih =>
    cases q with
    | nil => simp at hl
    | cons y q =>
      obtain ⟨s1, e1, r1⟩ := h.set (i := p.length) (by simp) x
      rw [List.set_append_right _ _ (Nat.le_refl _), Nat.sub_self, List.set_cons_zero] at r1
      obtain ⟨s2, e2, r2⟩ := ih (s := s1) (p ++ [x]) q (by simpa using r1) (by simpa using hl)
      refine ⟨s2, ?_, by simpa using r2⟩
      rw [initLoop, e1, Res.bind_ok]
      simpa using e2

theorem Rep.copy {N : Nat} {s : InfArray T} {l : List T} (h : Rep N s l) : Rep N (copy N s) l := by
  refine ⟨h.size, fun hl => ?_, fun hl => ?_⟩
  · have := h.small hl
    exact ⟨by simp [InfArray.copy, setDataPtr, h.size, hl], this.2⟩
  · have := h.large hl
    exact ⟨by simp [InfArray.copy, setDataPtr, h.size]; omega, this.2⟩

variable [Inhabited T]

theorem Rep.resize {N : Nat} {s : InfArray T} {l : List T} (h : Rep N s l) (n : Nat) :
    ∃ s' l', resize N s n = .ok s' ∧ Rep N s' l' ∧ l'.length = n ∧ l'.take l.length = l.take n ∧
      (N < n → l' = l.take n ++ List.replicate (n - l.length) default) := by
  unfold InfArray.resize
  by_cases hn : N < n
  · simp only [if_pos hn]
    by_cases hl : l.length ≤ N
    · obtain ⟨h1, h2, h3⟩ := h.small hl
      rw [if_pos (by rw [h.size]; exact hl)]
      have hmap : (List.range s.size).map s.arr = l := by
        rw [h.size]
        apply List.ext_getElem?
        intro i
        by_cases hi : i < l.length
        · rw [h3 i hi]; simp [hi]
        · rw [List.getElem?_eq_none (by simp; omega), List.getElem?_eq_none (by omega)]
      have hv : (List.range s.size).map s.arr ++ (vresize s.vec n).drop s.size =
          l ++ List.replicate (n - l.length) default := by
        rw [hmap, h.size, h2]
        simp [vresize]
      rw [hv]
      have ht : l.take n = l := List.take_of_length_le (by omega)
      refine ⟨_, l ++ List.replicate (n - l.length) default, rfl, ⟨by simp; omega, fun hl => by simp at hl; omega, fun _ => ⟨rfl, rfl⟩⟩, by simp; omega,
        by simp [ht], fun _ => by rw [ht]⟩
    · obtain ⟨h1, h2⟩ := h.large (by omega)
      rw [if_neg (by rw [h.size]; exact hl), h2]
      refine ⟨_, vresize l n, rfl, ⟨by simp [vresize]; omega, fun hl => ?_, fun _ => ⟨rfl, rfl⟩⟩, by simp [vresize]; omega, ?_,
        fun _ => rfl⟩
      · simp [vresize] at hl; omega
      · simp only [vresize, List.take_append, List.take_take, List.length_take]
        by_cases hc : n ≤ l.length
        · have : n - l.length = 0 := by omega
          simp [this, Nat.min_eq_right hc]
        · have h5 : l.length - min n l.length = 0 := by omega
          simp [Nat.min_eq_left (show l.length ≤ n by omega), List.take_of_length_le (show l.length ≤ n by omega), h5]
  · rw [if_neg hn]
    by_cases hl : l.length ≤ N
    · obtain ⟨h1, h2, h3⟩ := h.small hl
      rw [if_neg (by rw [h.size]; omega)]
      refine ⟨_, (List.range n).map s.arr, rfl, ⟨by simp, fun _ => ⟨rfl, rfl, ?_⟩, fun hc => by simp at hc; omega⟩,
        by simp, ?_, fun hc => by omega⟩
      · intro i hi
        simp only [List.length_map, List.length_range] at hi
        simp [hi]
      · apply List.ext_getElem?
        intro i
        simp only [List.getElem?_take, List.getElem?_map]
        by_cases h1 : i < l.length
        · rw [if_pos h1, h3 i h1]
          by_cases h2 : i < n
          · simp [h2]
          · rw [if_neg h2, List.getElem?_eq_none (by simp; omega)]; rfl
        · rw [if_neg h1]
          split_ifs
          · rw [List.getElem?_eq_none (by omega)]
          · rfl
    · obtain ⟨h1, h2⟩ := h.large (by omega)
      rw [if_pos (by rw [h.size]; omega), if_pos (by rw [h2]; omega)]
      refine ⟨_, l.take n, rfl, ⟨by simp; omega, fun _ => ⟨rfl, rfl, ?_⟩, fun hc => by simp at hc; omega⟩,
        by simp; omega, by rw [List.take_of_length_le]; simp; omega, fun hc => by omega⟩
      intro i hi
      simp only [List.length_take] at hi
      have hi' : i < l.length := by omega
      simp only [h2, if_pos (show i < n by omega), List.getElem?_take, List.getElem?_eq_getElem hi', Option.getD_some]

theorem Rep.push {N : Nat} {s : InfArray T} {l : List T} (h : Rep N s l) (v : T) :
    ∃ s', pushBack N s v = .ok s' ∧ Rep N s' (l ++ [v]) := by
  unfold pushBack
  by_cases h1 : l.length < N
  · rw [if_pos (by rw [h.size]; exact h1)]
    obtain ⟨a1, a2, a3⟩ := h.small (by omega)
    refine ⟨_, rfl, ⟨by simp [h.size], fun _ => ⟨a1, a2, ?_⟩, fun hc => by simp at hc; omega⟩⟩
    intro i hi
    simp only [List.length_append, List.length_singleton] at hi
    rw [h.size]
    by_cases e : i = l.length
    · subst e; simp
    · rw [List.getElem?_append_left (by omega), a3 i (by omega)]
      simp only [Function.update_of_ne e]
  · rw [if_neg (by rw [h.size]; exact h1)]
    by_cases h2 : l.length = N
    · rw [if_pos (by rw [h.size]; exact h2)]
      obtain ⟨s1, l1, e1, r1, g1, _, g3⟩ := h.resize (s.size + 1)
      have e3 := g3 (by rw [h.size]; omega)
      rw [h.size, List.take_of_length_le (by omega)] at e3
      simp only [Nat.add_sub_cancel_left, List.replicate_one] at e3
      subst e3
      obtain ⟨s2, e2, r2⟩ := r1.set (i := l.length) (by simp) v
      refine ⟨s2, ?_, by simpa using r2⟩
      rw [e1, Res.bind_ok, r1.size]
      simpa using e2
    · rw [if_neg (by rw [h.size]; exact h2)]
      obtain ⟨a1, a2⟩ := h.large (by omega)
      exact ⟨_, rfl, ⟨by simp [h.size], fun hc => by simp at hc; omega, fun _ => ⟨rfl, by simp [a2]⟩⟩⟩

omit [Inhabited T] in
theorem Rep.erase {N : Nat} {s : InfArray T} {l : List T} (h : Rep N s l) {k : Nat} (hk : k < l.length)
    (hN : l.length ≠ N + 1) : ∃ s', erase N s k = .ok s' ∧ Rep N s' (l.eraseIdx k) := by
  unfold InfArray.erase
  have hlen : (l.eraseIdx k).length = l.length - 1 := List.length_eraseIdx_of_lt hk
  by_cases h1 : l.length ≤ N
  · obtain ⟨a1, a2, a3⟩ := h.small h1
    rw [if_pos (by rw [h.size]; exact h1), if_pos ⟨a1, by rw [h.size]; exact hk⟩]
    refine ⟨_, rfl, ⟨by rw [hlen, h.size], fun _ => ⟨a1, a2, ?_⟩, fun hc => by omega⟩⟩
    intro i hi
    rw [List.getElem?_eraseIdx]
    by_cases hik : i < k
    · simp only [if_pos hik, if_neg (show ¬ (k ≤ i ∧ i + 1 < s.size) by omega)]
      exact a3 i (by omega)
    · simp only [if_neg hik, if_pos (show k ≤ i ∧ i + 1 < s.size by rw [h.size]; omega)]
      exact a3 (i + 1) (by omega)
  · obtain ⟨a1, a2⟩ := h.large (by omega)
    rw [if_neg (by rw [h.size]; exact h1), if_pos ⟨a1, by rw [a2]; exact hk⟩]
    exact ⟨_, rfl, ⟨by rw [hlen, h.size], fun hc => by omega, fun _ => ⟨rfl, by rw [a2]⟩⟩⟩

/-- What the call is to do, on lists. For `resize` only the kept elements are fixed. -/
def Spec : Op T → List T → List T → Prop
  | .push v, l, l' => l' = l ++ [v]
  | .resize n, l, l' => l'.length = n ∧ ∀ i, i < n → i < l.length → l'[i]? = l[i]?
  | .assign n v, _, l' => l' = List.replicate n v
  | .fill v, l, l' => l' = List.replicate l.length v
  | .clear, _, l' => l' = []
  | .set i v, l, l' => l' = l.set i v
  | .erase k, l, l' => l' = l.eraseIdx k

/-- Calls with valid positions that do not erase from an array of exactly `N+1` elements. -/
def Allowed (N : Nat) : Op T → List T → Prop
  | .set i _, l => i < l.length
  | .erase k, l => k < l.length ∧ l.length ≠ N + 1
  | _, _ => True

/-- **C30, one call (partial).** On an array that represents a list every call with valid positions
acts as on a list. Missing: `erase` from an array of exactly `N+1` elements, see
`C30_erase_counterexample`. -/
theorem C30_step_partial {N : Nat} {s : InfArray T} {l : List T} (h : Rep N s l) (op : Op T)
    (ha : Allowed N op l) : ∃ s' l', step N s op = .ok s' ∧ Rep N s' l' ∧ Spec op l l' ∧ elems N s' = .ok l' := by
  suffices ∃ s' l', step N s op = .ok s' ∧ Rep N s' l' ∧ Spec op l l' by
    obtain ⟨s', l', h1, h2, h3⟩ := this
    exact ⟨s', l', h1, h2, h3, h2.elems⟩
  cases op with
  | push v => obtain ⟨s', e, r⟩ := h.push v; exact ⟨s', _, e, r, rfl⟩
  | resize n =>
    obtain ⟨s', l', e, r, h1, h2, _⟩ := h.resize n
    refine ⟨s', l', e, r, h1, fun i hi hl => ?_⟩
    have := congrArg (·[i]?) h2
    simpa [List.getElem?_take, hi, hl] using this
  | assign n v =>
    obtain ⟨s', l', e, r, h1, h2, _⟩ := h.resize n
    obtain ⟨s2, e2, r2⟩ := r.fillN v (n := l'.length) (Nat.le_refl _)
    refine ⟨s2, List.replicate n v, ?_, by
      rw [List.drop_length, List.append_nil, h1] at r2; exact r2, rfl⟩
    simp only [step, assign, e, Res.bind_ok, fill, r.size, e2]
  | fill v =>
    obtain ⟨s2, e2, r2⟩ := h.fillN v (n := l.length) (Nat.le_refl _)
    refine ⟨s2, List.replicate l.length v, ?_, by simpa using r2, rfl⟩
    simp only [step, fill, h.size, e2]
  | clear => exact ⟨_, [], rfl, rep_empty N s.arr, rfl⟩
  | set i v => obtain ⟨s', e, r⟩ := h.set ha v; exact ⟨s', _, e, r, rfl⟩
  | erase k => obtain ⟨s', e, r⟩ := h.erase ha.1 ha.2; exact ⟨s', _, e, r, rfl⟩

/-- A sequence of calls on lists, each allowed. -/
inductive SpecRun (N : Nat) : List (Op T) → List T → List T → Prop
  | nil (l : List T) : SpecRun N [] l l
  | cons {op : Op T} {ops : List (Op T)} {l l1 l2 : List T} (ha : Allowed N op l) (hs : Spec op l l1)
      (hr : SpecRun N ops l1 l2) : SpecRun N (op :: ops) l l2

/-- Lengths are fixed by the calls, so whether all calls of a sequence are allowed can be computed. -/
def allowedLen (N : Nat) : List (Op T) → Nat → Bool
  | [], _ => true
  | .push _ :: ops, n => allowedLen N ops (n + 1)
  | .resize m :: ops, _ => allowedLen N ops m
  | .assign m _ :: ops, _ => allowedLen N ops m
  | .fill _ :: ops, n => allowedLen N ops n
  | .clear :: ops, _ => allowedLen N ops 0
  | .set i _ :: ops, n => decide (i < n) && allowedLen N ops n
  | .erase k :: ops, n => decide (k < n ∧ n ≠ N + 1) && allowedLen N ops (n - 1)

/-- **C30, sequences of calls (partial, see `C30_step_partial`).** Any sequence of calls on a new array
acts as on a list. -/
theorem C30_run_partial {N : Nat} (ops : List (Op T)) {s : InfArray T} {l : List T} (h : Rep N s l)
    (ha : allowedLen N ops l.length = true) :
    ∃ s' l', run N s ops = .ok s' ∧ Rep N s' l' ∧ SpecRun N ops l l' ∧ elems N s' = .ok l' := by
  induction ops generalizing s l with
  | nil => exact ⟨s, l, rfl, h, .nil l, h.elems⟩
  | cons op ops ih =>
    have hal : Allowed N op l := by
      cases op <;> simp only [allowedLen, Bool.and_eq_true, decide_eq_true_eq] at ha <;> simp only [Allowed]
      · exact ha.1
      · exact ha.1
    obtain ⟨s1, l1, e1, r1, sp, _⟩ := C30_step_partial h op hal
    have hl1 : allowedLen N ops l1.length = true := by
      cases op <;> simp only [allowedLen, Bool.and_eq_true, decide_eq_true_eq] at ha <;> simp only [Spec] at sp
      · subst sp; simpa using ha
      · rw [sp.1]; exact ha
      · subst sp; simpa using ha
      · subst sp; simpa using ha
      · subst sp; simpa using ha
      · subst sp; simpa using ha.2
      · subst sp; rw [List.length_eraseIdx_of_lt ha.1.1]; exact ha.2
    obtain ⟨s2, l2, e2, r2, sp2, e⟩ := ih r1 hl1
    refine ⟨s2, l2, ?_, r2, .cons hal sp sp2, e⟩
    simp only [run, Res.foldM_cons, e1, Res.bind_ok]
    exact e2

example (junk : Nat → Nat) : ∃ s', run 2 (empty junk) [.push 5, .push 6, .push 7, .push 8, .erase 1, .resize 2, .push 9] =
    .ok s' ∧ elems 2 s' = .ok [5, 7, 9] := by
  obtain ⟨s', l', h1, h2, h3, h4⟩ := C30_run_partial (N := 2)
    [.push 5, .push 6, .push 7, .push 8, .erase 1, .resize 2, .push 9] (rep_empty 2 junk) (by decide)
  refine ⟨s', h1, ?_⟩
  rw [h4]
  cases h3 with | cons _ a h3 =>
  cases h3 with | cons _ b h3 =>
  cases h3 with | cons _ c h3 =>
  cases h3 with | cons _ d h3 =>
  cases h3 with | cons _ e h3 =>
  cases h3 with | @cons _ _ _ l6 _ _ f h3 =>
  cases h3 with | cons _ g h3 =>
  cases h3
  simp only [Spec] at a b c d e f g
  subst a b c d e g
  obtain ⟨f1, f2⟩ := f
  have x := f2 0 (by decide) (by decide)
  have y := f2 1 (by decide) (by decide)
  obtain ⟨p, q, rfl⟩ := List.length_eq_two.1 f1
  simp at x y
  simp [x, y]

/-- **C30, construction.** -/
theorem C30_construct (N : Nat) (junk : Nat → T) :
    elems N (empty junk) = .ok [] ∧
    (∀ n v, ∃ s, ofFill N junk n v = .ok s ∧ Rep N s (List.replicate n v)) ∧
    ∀ l, ∃ s, ofList N junk l = .ok s ∧ Rep N s l := by
  refine ⟨rfl, fun n v => ?_, fun l => ?_⟩
  · obtain ⟨l, h1, h2, _⟩ := rep_ofSize N junk n
    obtain ⟨s, e, r⟩ := h2.fillN v (n := n) (by omega)
    exact ⟨s, e, by rw [List.drop_of_length_le (by omega), List.append_nil] at r; exact r⟩
  · obtain ⟨q, h1, h2, _⟩ := rep_ofSize N junk l.length
    obtain ⟨s, e, r⟩ := rep_initLoop [] l q h2 h1.symm
    exact ⟨s, e, r⟩

omit [Inhabited T] in
/-- **C30, copying and moving.** The new object represents the same list and is independent of the old
one; after a move the old object has size 0. -/
theorem C30_copy {N : Nat} {s : InfArray T} {l : List T} (h : Rep N s l) (junk : Nat → T) :
    Rep N (copy N s) l ∧ Rep N (move N junk s).1 l ∧ (move N junk s).2.size = 0 :=
  ⟨h.copy, h.copy, rfl⟩

omit [Inhabited T] in
/-- **C30, swap (partial).** Missing: an operand with more than `N` elements, see
`C30_swap_counterexample`. -/
theorem C30_swap_partial {N : Nat} {a b : InfArray T} {l m : List T} (ha : Rep N a l) (hb : Rep N b m)
    (hl : l.length ≤ N) (hm : m.length ≤ N) : Rep N (swap N a b).1 m ∧ Rep N (swap N a b).2 l := by
  obtain ⟨a1, a2, a3⟩ := ha.small hl
  obtain ⟨b1, b2, b3⟩ := hb.small hm
  refine ⟨⟨hb.size, fun _ => ⟨by simp [swap, setDataPtr, hb.size, hm], b2, b3⟩, fun h => by omega⟩,
    ⟨ha.size, fun _ => ⟨by simp [swap, swapPtr, b1], a2, a3⟩, fun h => by omega⟩⟩

example (junk : Nat → Nat) : ∃ a b, ofList 3 junk [1, 2] = .ok a ∧ ofList 3 junk [7, 8, 9] = .ok b ∧
    elems 3 (swap 3 a b).1 = .ok [7, 8, 9] ∧ elems 3 (swap 3 a b).2 = .ok [1, 2] := by
  obtain ⟨a, ea, ra⟩ := (C30_construct 3 junk).2.2 [1, 2]
  obtain ⟨b, eb, rb⟩ := (C30_construct 3 junk).2.2 [7, 8, 9]
  obtain ⟨h1, h2⟩ := C30_swap_partial ra rb (by decide) (by decide)
  exact ⟨a, b, ea, eb, h1.elems, h2.elems⟩

/-- **C30 is false of `swap`.** Swapping an array of three elements with one of one element (`N = 2`):
the second object then has size 3 and reads past the end of its inline buffer. Swapping two arrays of
three elements: the second object reads memory owned by the first. -/
theorem C30_swap_counterexample (junk : Nat → Nat) : ∃ a b c, ofList 2 junk [1, 2, 3] = .ok a ∧
    ofList 2 junk [4] = .ok b ∧ ofList 2 junk [5, 6, 7] = .ok c ∧
    (swap 2 a b).2.size = 3 ∧ elems 2 (swap 2 a b).2 = .ub ∧ elems 2 (swap 2 a c).2 = .ub :=
  ⟨_, _, _, rfl, rfl, rfl, rfl, rfl, rfl⟩

/-- **C30 is false of `erase`.** Erasing one element from an array of `N+1` (here 3) elements leaves
the elements in `vec_` although the size is `N`. The array reads correctly, but a copy of it has the
old elements, `push_back` puts the old elements back, and a second `erase` throws. -/
theorem C30_erase_counterexample : ∃ s s', run 2 (empty fun _ => 0) [.push 1, .push 2, .push 3] = .ok s ∧
    erase 2 s 0 = .ok s' ∧ elems 2 s' = .ok [2, 3] ∧ elems 2 (copy 2 s') = .ok [1, 2] ∧
    (∃ s2, pushBack 2 s' 9 = .ok s2 ∧ elems 2 s2 = .ok [1, 2, 9]) ∧ erase 2 s' 0 = .throw :=
  ⟨_, _, rfl, rfl, rfl, rfl, ⟨_, rfl, rfl⟩, rfl⟩

/-- **C30 is false of a moved-from array.** `push_back` on it does not restore `data_`: reading the
element dereferences a null pointer. -/
theorem C30_moved_counterexample (junk : Nat → Nat) (v : Nat) (s : InfArray Nat) : ∃ s',
    pushBack 2 (move 2 junk s).2 v = .ok s' ∧ s'.size = 1 ∧ elems 2 s' = .ub :=
  ⟨_, rfl, rfl, rfl⟩

/-- **`resize` does not initialise.** Unlike `std::vector`, growing within the inline buffer shows the
elements that were there before. -/
theorem C30_resize_counterexample : ∃ s, run 4 (empty fun _ => 0) [.push 1, .push 2, .push 3, .resize 1, .resize 3] =
    .ok s ∧ elems 4 s = .ok [1, 2, 3] :=
  ⟨_, rfl, rfl⟩

end Verif.Util.InfArray
