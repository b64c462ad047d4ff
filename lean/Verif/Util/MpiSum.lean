import Verif.Util.MpiGather
import Mathlib.Algebra.BigOperators.Group.List.Basic

/-!
# `sum` and `allSum` over processes (util/parallel.h:386-429), property C119

Messages and processes are as in `Mpi.lean`. `plus` is `operator+=` of the objects, `enc` is `itensor::write` and `dec` is `itensor::read`; nothing is assumed of `plus`, so that it may be the
addition of doubles, which is not associative.
-/

namespace Verif.Mpi

/-- `sum` for `k` processes, at its start: process `i` sends its object, and the first one has its mailbox for process 1. parallel.h:403-417 -/
def sumNet {α : Type*} (B k : Nat) (enc : α → List Byte) (buf : Nat → List Byte) (obj : Nat → α) : GNet :=
  ⟨fun i => if 1 ≤ i ∧ i < k then sends B (enc (obj i)) else [], fun _ _ => [], 1, .waitFlag (buf 1), []⟩

/-- `res += tmp` for every object received, from `T res = obj` on. parallel.h:402-411 -/
def sumGot {α : Type*} (plus : α → α → α) (dec : List Byte → α) (own : α) (got : List (List Byte)) : α := got.foldl (fun r d => plus r (dec d)) own

/-- What `sum` returns in process `i`, when the first process has received `got`. parallel.h:397-419 -/
def sumRet {α : Type*} (plus : α → α → α) (dec : List Byte → α) (k : Nat) (obj : Nat → α) (got : List (List Byte)) (i : Nat) : α :=
  if k = 1 then obj i else if i = 0 then sumGot plus dec (obj 0) got else obj i

/-- What `allSum` returns in process `i`: the first process broadcasts its result, and the others read it into theirs (parallel.h:284-294, 421-429). `past` is as in `broadcast`. -/
def allSumRet {α : Type*} (plus : α → α → α) (enc : α → List Byte) (dec : List Byte → α) (B k : Nat) (past : Option Byte) (obj : Nat → α) (got : List (List Byte)) (i : Nat) : Res α :=
  if k = 1 then .ok (obj i)
  else (broadcast B past (enc (sumRet plus dec k obj got 0))).bind fun d => .ok (if i = 0 then sumRet plus dec k obj got 0 else dec d)

theorem sumNet_eq {α : Type*} (B k : Nat) (enc : α → List Byte) (buf : Nat → List Byte) (obj : Nat → α) :
    sumNet B k enc buf obj = gather B k id buf fun i => enc (obj i) := rfl

/-- What the first process has received at the end. -/
theorem sum_got {α : Type*} (B k : Nat) (hB : 0 < B) (enc : α → List Byte) (buf : Nat → List Byte) (hbuf : ∀ i, (buf i).length = B) (obj : Nat → α) (N : GNet)
    (hN : Relation.ReflTransGen (GStep B k buf) (sumNet B k enc buf obj) N) (hn : ∀ N', ¬GStep B k buf N N') :
    (∀ i, N.prog i = []) ∧ N.got = ((List.range (k - 1)).map fun i => obj (i + 1)).map enc := by
  rw [sumNet_eq] at hN
  have hg := (good_gather B k hB id buf hbuf fun i => enc (obj i)).steps hN
  obtain ⟨h1, h2⟩ := hg.progress hn
  refine ⟨h1, ?_⟩
  rw [hg.got, show N.cur - 1 = k - 1 by omega, List.map_map]
  rfl

theorem sumGot_eq {α : Type*} (plus : α → α → α) (enc : α → List Byte) (dec : List Byte → α) (hdec : ∀ x rest, dec (enc x ++ rest) = x) (own : α) (l : List α) :
    sumGot plus dec own (l.map enc) = l.foldl plus own := by
  unfold sumGot
  rw [List.foldl_map]
  congr 1
  funext r x
  rw [show enc x = enc x ++ [] by simp, hdec]

/-- **C119 (`sum`).** With `k` processes, whatever the order of events, every step leaves less to do and no receive fails; when nothing more can happen everything has been sent, and `sum` returns in
the first process the objects of all processes added one after another, in the order of the processes, and in the others their own object. In part: sends are buffered, as in `C111_gather_partial`. -/
theorem C119_sum_partial {α : Type*} (plus : α → α → α) (B k : Nat) (hB : 0 < B) (hk : 0 < k) (enc : α → List Byte) (dec : List Byte → α) (hdec : ∀ x rest, dec (enc x ++ rest) = x)
    (buf : Nat → List Byte) (hbuf : ∀ i, (buf i).length = B) (obj : Nat → α) (N : GNet) (hN : Relation.ReflTransGen (GStep B k buf) (sumNet B k enc buf obj) N) :
    (∀ N', GStep B k buf N N' → N'.todo k < N.todo k) ∧
    (N.cur < k → N.st ≠ .failed) ∧
    ((∀ N', ¬GStep B k buf N N') → (∀ i, N.prog i = []) ∧
      sumRet plus dec k obj N.got 0 = ((List.range (k - 1)).map fun i => obj (i + 1)).foldl plus (obj 0) ∧
      ∀ i, i ≠ 0 → sumRet plus dec k obj N.got i = obj i) := by
  have hN' := hN
  rw [sumNet_eq] at hN'
  have hg := (good_gather B k hB id buf hbuf fun i => enc (obj i)).steps hN'
  refine ⟨fun N' hs => hg.todo_lt hs, fun hc hf => ?_, fun hn => ?_⟩
  · have := ((hg.now hc).fin (by rw [hf]; rfl)).1
    rw [hf] at this
    cases this
  · obtain ⟨h1, h2⟩ := sum_got B k hB enc buf hbuf obj N hN hn
    refine ⟨h1, ?_, fun i hi => ?_⟩
    · unfold sumRet
      by_cases h : k = 1
      · subst h; rfl
      · rw [if_neg h, if_pos rfl, h2, sumGot_eq plus enc dec hdec]
    · unfold sumRet
      by_cases h : k = 1
      · rw [if_pos h]
      · rw [if_neg h, if_neg hi]

/-- **C119 (`sum` of numbers).** If `plus` is the addition of a commutative monoid, this is the sum over all processes. -/
theorem C119_total_partial {α : Type*} [AddCommMonoid α] (B k : Nat) (hB : 0 < B) (hk : 0 < k) (enc : α → List Byte) (dec : List Byte → α) (hdec : ∀ x rest, dec (enc x ++ rest) = x)
    (buf : Nat → List Byte) (hbuf : ∀ i, (buf i).length = B) (obj : Nat → α) (N : GNet) (hN : Relation.ReflTransGen (GStep B k buf) (sumNet B k enc buf obj) N)
    (hn : ∀ N', ¬GStep B k buf N N') : sumRet (· + ·) dec k obj N.got 0 = ((List.range k).map obj).sum := by
  rw [((C119_sum_partial (· + ·) B k hB hk enc dec hdec buf hbuf obj N hN).2.2 hn).2.1]
  obtain ⟨k', rfl⟩ : ∃ k', k = k' + 1 := ⟨k - 1, by omega⟩
  have key : ∀ (l : List α) (a : α), l.foldl (· + ·) a = a + l.sum := by
    intro l
    induction l with
    | nil => intro a; simp
    | cons x l ih => intro a; rw [List.foldl_cons, ih, List.sum_cons, add_assoc]
  rw [key, Nat.add_sub_cancel, List.range_succ_eq_map, List.map_cons, List.sum_cons, List.map_map]
  rfl

/-- **C119 (`allSum`).** When the remainder of the message leaves room for two more characters in the buffer, `allSum` returns in every process what `sum` returns in the first. In part: for other
lengths see `C119_overflow_counterexample`, and the byte after the end of the string is taken to be readable. -/
theorem C119_allSum_partial {α : Type*} (plus : α → α → α) (B k : Nat) (hB : 0 < B) (hk : 0 < k) (enc : α → List Byte) (dec : List Byte → α) (hdec : ∀ x rest, dec (enc x ++ rest) = x)
    (buf : Nat → List Byte) (hbuf : ∀ i, (buf i).length = B) (obj : Nat → α) (b : Byte)
    (hfit : (enc (((List.range (k - 1)).map fun i => obj (i + 1)).foldl plus (obj 0))).length % B + 2 ≤ B)
    (N : GNet) (hN : Relation.ReflTransGen (GStep B k buf) (sumNet B k enc buf obj) N) (hn : ∀ N', ¬GStep B k buf N N') (i : Nat) (hi : i < k) :
    allSumRet plus enc dec B k (some b) obj N.got i = .ok (((List.range (k - 1)).map fun i => obj (i + 1)).foldl plus (obj 0)) := by
  have h := ((C119_sum_partial plus B k hB hk enc dec hdec buf hbuf obj N hN).2.2 hn).2.1
  unfold allSumRet
  by_cases h1 : k = 1
  · subst h1
    obtain rfl : i = 0 := by omega
    rfl
  · rw [if_neg h1, h, C111_broadcast_partial B b _ hfit, Res.bind_ok, hdec]
    simp

/-- **C119 fails for `allSum`** with two or more processes when the message is one character short of filling its last buffer: the buffer of the receivers overflows. -/
theorem C119_overflow_counterexample {α : Type*} (plus : α → α → α) (B k : Nat) (hB : 0 < B) (hk : 1 < k) (enc : α → List Byte) (dec : List Byte → α) (hdec : ∀ x rest, dec (enc x ++ rest) = x)
    (buf : Nat → List Byte) (hbuf : ∀ i, (buf i).length = B) (obj : Nat → α) (b : Byte) (q : Nat)
    (hlen : (enc (((List.range (k - 1)).map fun i => obj (i + 1)).foldl plus (obj 0))).length = q * B + (B - 1))
    (N : GNet) (hN : Relation.ReflTransGen (GStep B k buf) (sumNet B k enc buf obj) N) (hn : ∀ N', ¬GStep B k buf N N') (i : Nat) :
    allSumRet plus enc dec B k (some b) obj N.got i = .ub := by
  have h := ((C119_sum_partial plus B k hB (by omega) enc dec hdec buf hbuf obj N hN).2.2 hn).2.1
  unfold allSumRet
  rw [if_neg (by omega), h, C111_overflow_counterexample B hB b q _ hlen]
  rfl

/-- One byte each in three processes, with buffers of four characters: the first process gets `5 - 1 - 2`, added up in this order. -/
example (N : GNet) (hN : Relation.ReflTransGen (GStep 4 3 fun _ => [0, 0, 0, 0]) (sumNet 4 3 (fun x : Byte => [x]) (fun _ => [0, 0, 0, 0]) fun i => if i = 0 then 5 else UInt8.ofNat i) N)
    (hn : ∀ N', ¬GStep 4 3 (fun _ => [0, 0, 0, 0]) N N') :
    sumRet (· - ·) (fun l => l.headD 0) 3 (fun i => if i = 0 then 5 else UInt8.ofNat i) N.got 0 = 2 ∧
    allSumRet (· - ·) (fun x : Byte => [x]) (fun l => l.headD 0) 4 3 (some 9) (fun i => if i = 0 then 5 else UInt8.ofNat i) N.got 2 = .ok 2 := by
  have h := ((C119_sum_partial (· - ·) 4 3 (by decide) (by decide) _ (fun l => l.headD 0) (fun _ _ => rfl) _ (fun _ => rfl) _ N hN).2.2 hn).2.1
  have h2 := C119_allSum_partial (· - ·) 4 3 (by decide) (by decide) _ (fun l => l.headD 0) (fun _ _ => rfl) _ (fun _ => rfl) _ 9 (by decide) N hN hn 2 (by decide)
  exact ⟨by rw [h]; decide, by rw [h2]; decide⟩

end Verif.Mpi
