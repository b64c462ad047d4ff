import Verif.Tensor.RangeLemmas
import Mathlib.Data.List.Nodup
import Mathlib.Data.List.Perm.Subperm
import Mathlib.Data.List.Perm.Lattice

/-!
# `Permutation` (`/repo/itensor/tensor/permutation.h`) and C16
-/

namespace Verif.Tensor

/-- `Permutation` (permutation.h:27-71): its store, entry `j` is `dest(j)`. -/
abbrev Permutation := List Nat

namespace Permutation

/-- `Permutation(size)` (permutation.h:73-79): the identity. -/
def ident (n : Nat) : Permutation := List.range n

/-- `setFromTo` / `P[j] = x` (permutation.h:46-57); outside the store it is undefined. -/
def setFromTo (P : Permutation) (fr dst : Nat) : Res Permutation :=
  if fr < P.length then .ok (P.set fr dst) else .ub

/-- Loop of `inverse` (permutation.h:86-87), from position `n` of `P`. -/
def invLoop : List Nat → Nat → Permutation → Res Permutation
  | [], _, inv => .ok inv
  | d :: P, n, inv => (setFromTo inv d n).bind (invLoop P (n + 1))

/-- `inverse` (permutation.h:82-89). -/
def inverse (P : Permutation) : Res Permutation := invLoop P 0 (ident P.length)

/-- Loop of `isTrivial` (permutation.h:91-99), from position `n`. -/
def trivLoop : List Nat → Nat → Bool
  | [], _ => true
  | d :: P, n => if d ≠ n then false else trivLoop P (n + 1)

/-- `isTrivial` (permutation.h:91-99). -/
def isTrivial (P : Permutation) : Bool := trivLoop P 0

/-- Loop of `permute` (permutation.h:101-111), from position `i` of `from`. -/
def permuteLoop {α} : List Nat → List α → List α → Res (List α)
  | _, [], dst => .ok dst
  | [], _ :: _, _ => .ub
  | d :: P, x :: fr, dst => if d < dst.length then permuteLoop P fr (dst.set d x) else .ub

/-- `permute(P,from,to)` (permutation.h:101-111). -/
def permute {α} (P : Permutation) (fr dst : List α) : Res (List α) := permuteLoop P fr dst

/-- Outer loop of `calcPerm(s1,s2,P)` (permutation.h:114-138), from position `i2` of `s2`. The inner
loop is the search for the first equal element of `s1`. -/
def calcLoop {α} [DecidableEq α] (s1 : List α) : List α → Nat → Permutation → Res Permutation
  | [], _, P => .ok P
  | v2 :: s2, i2, P =>
    match s1.findIdx? (fun v => v2 == v) with
    | none => .throw
    | some i1 => (setFromTo P i1 i2).bind (calcLoop s1 s2 (i2 + 1))

/-- `calcPerm(s1,s2)` (permutation.h:140-149). -/
def calcPerm {α} [DecidableEq α] (s1 s2 : List α) : Res Permutation :=
  calcLoop s1 s2 0 (ident s1.length)

/-- `P` is a permutation of `0..n-1`. -/
def IsPerm (P : Permutation) : Prop := P.Perm (List.range P.length)

instance (P : Permutation) : Decidable (IsPerm P) :=
  inferInstanceAs (Decidable (List.Perm P (List.range (List.length P))))

end Permutation

open Permutation

namespace Permutation

theorem IsPerm.nodup {P : Permutation} (h : IsPerm P) : P.Nodup := by
  unfold IsPerm at h; rw [h.nodup_iff]; exact List.nodup_range

theorem IsPerm.lt {P : Permutation} (h : IsPerm P) {x : Nat} (hx : x ∈ P) : x < P.length :=
  List.mem_range.1 (h.mem_iff.1 hx)

theorem IsPerm.mem {P : Permutation} (h : IsPerm P) {x : Nat} (hx : x < P.length) : x ∈ P :=
  h.mem_iff.2 (List.mem_range.2 hx)

theorem isPerm_of_nodup {P : Permutation} (h1 : P.Nodup) (h2 : ∀ x ∈ P, x < P.length) : IsPerm P := by
  unfold IsPerm
  refine (List.subperm_of_subset h1 (fun x hx => List.mem_range.2 (h2 x hx))).perm_of_length_le ?_
  simp

/-- The value that a sequence of writes `to[P[n]] := x[n]` leaves, for distinct targets. -/
theorem permuteLoop_spec {α} (P : List Nat) (fr dst : List α) (hl : fr.length = P.length)
    (hnd : P.Nodup) (hlt : ∀ d ∈ P, d < dst.length) :
    ∃ r, permuteLoop P fr dst = .ok r ∧ r.length = dst.length ∧
      (∀ (n d : Nat), P[n]? = some d → r[d]? = fr[n]?) ∧ (∀ d, d ∉ P → r[d]? = dst[d]?) := by
  induction P generalizing fr dst with
  | nil =>
    have : fr = [] := by simpa using hl
    subst this
    exact ⟨dst, rfl, rfl, by simp, by simp⟩
  | cons d P ih =>
    cases fr with
    | nil => simp at hl
    | cons x fr =>
      have hd : d < dst.length := hlt d (by simp)
      obtain ⟨hdP, hnd'⟩ := List.nodup_cons.1 hnd
      obtain ⟨r, e, h1, h2, h3⟩ := ih fr (dst.set d x) (by simpa using hl) hnd'
        (fun y hy => by simpa using hlt y (by simp [hy]))
      refine ⟨r, by rw [permuteLoop, if_pos hd, e], by simpa using h1, ?_, ?_⟩
      · intro n y hy
        cases n with
        | zero =>
          simp at hy; subst hy
          rw [h3 _ hdP, List.getElem?_set_self hd]; simp
        | succ n => simpa using h2 n y (by simpa using hy)
      · intro y hy
        simp only [List.mem_cons, not_or] at hy
        rw [h3 y hy.2, List.getElem?_set_ne (fun h => hy.1 h.symm)]

theorem invLoop_eq (P : List Nat) (n : Nat) (inv : Permutation) :
    invLoop P n inv = permuteLoop P (List.range' n P.length) inv := by
  induction P generalizing n inv with
  | nil => rfl
  | cons d P ih =>
    simp only [invLoop, List.length_cons, List.range'_succ, permuteLoop, setFromTo]
    by_cases h : d < inv.length
    · simp [h, ih]
    · simp [h]

end Permutation

/-- **C16.** `inverse(P)` is a permutation, and composing it with `P` on either side gives the
identity. -/
theorem C16_inverse (P : Permutation) (h : IsPerm P) :
    ∃ Q, inverse P = .ok Q ∧ IsPerm Q ∧ Q.length = P.length ∧
      (∀ (n d : Nat), P[n]? = some d → Q[d]? = some n) ∧
      (∀ (n d : Nat), Q[n]? = some d → P[d]? = some n) ∧ inverse Q = .ok P := by
  have main : ∀ P : Permutation, IsPerm P → ∃ Q, inverse P = .ok Q ∧ IsPerm Q ∧
      Q.length = P.length ∧ (∀ (n d : Nat), P[n]? = some d → Q[d]? = some n) := by
    intro P h
    obtain ⟨Q, e, h1, h2, h3⟩ := permuteLoop_spec P (List.range' 0 P.length) (ident P.length)
      (by simp) h.nodup (fun d hd => by simpa [ident] using h.lt hd)
    have hlen : Q.length = P.length := by simpa [ident] using h1
    have hval : ∀ (n d : Nat), P[n]? = some d → Q[d]? = some n := by
      intro n d hd
      have hn : n < P.length := (List.getElem?_eq_some_iff.1 hd).1
      rw [h2 n d hd, List.getElem?_range' hn]; simp
    refine ⟨Q, by rw [inverse, invLoop_eq, e], ?_, hlen, hval⟩
    have hget : ∀ d, d < Q.length → ∃ n, P[n]? = some d ∧ Q[d]? = some n := by
      intro d hd
      obtain ⟨n, hn⟩ := List.mem_iff_getElem?.1 (h.mem (by omega : d < P.length))
      exact ⟨n, hn, hval n d hn⟩
    refine isPerm_of_nodup ?_ ?_
    · rw [List.nodup_iff_getElem?_ne_getElem?]
      intro a b hab hb heq
      obtain ⟨n, hn, hQ⟩ := hget a (by omega)
      obtain ⟨m, hm, hQ'⟩ := hget b hb
      rw [hQ, hQ'] at heq
      have : n = m := by simpa using heq
      subst this
      rw [hn] at hm
      have : a = b := by simpa using hm
      omega
    · intro x hx
      obtain ⟨d, hd⟩ := List.mem_iff_getElem?.1 hx
      obtain ⟨n, hn, hQ⟩ := hget d (List.getElem?_eq_some_iff.1 hd).1
      rw [hd] at hQ
      have := (List.getElem?_eq_some_iff.1 hn).1
      have : x = n := by simpa using hQ
      omega
  obtain ⟨Q, e, hQ, hlen, h1⟩ := main P h
  have h2 : ∀ (n d : Nat), Q[n]? = some d → P[d]? = some n := by
    intro n d hd
    have hn : n < P.length := by have := (List.getElem?_eq_some_iff.1 hd).1; omega
    obtain ⟨m, hm⟩ := List.mem_iff_getElem?.1 (h.mem hn)
    have := h1 m n hm
    rw [hd] at this
    have : d = m := by simpa using this
    subst this; exact hm
  refine ⟨Q, e, hQ, hlen, h1, h2, ?_⟩
  obtain ⟨P', e', hP', hlen', h1'⟩ := main Q hQ
  rw [e']
  congr 1
  apply List.ext_getElem?
  intro n
  by_cases hn : n < P.length
  · have hd : P[n]? = some P[n] := List.getElem?_eq_getElem hn
    rw [hd]; exact h1' _ _ (h1 _ _ hd)
  · rw [List.getElem?_eq_none (by omega), List.getElem?_eq_none (by omega)]

example : IsPerm [2, 0, 1] ∧ inverse [2, 0, 1] = .ok [1, 2, 0] := by decide

/-- **C16.** `isTrivial(P)` holds exactly for the identity. -/
theorem C16_isTrivial (P : Permutation) : isTrivial P = true ↔ ∀ n (h : n < P.length), P[n] = n := by
  have : ∀ (P : List Nat) (k : Nat),
      trivLoop P k = true ↔ ∀ n (h : n < P.length), P[n] = k + n := by
    intro P
    induction P with
    | nil => intro k; simp [trivLoop]
    | cons d P ih =>
      intro k
      by_cases hd : d = k
      · subst hd
        simp only [trivLoop, ne_eq, not_true_eq_false, if_false, ih]
        constructor
        · intro h n hn
          cases n with
          | zero => rfl
          | succ n => have := h n (by simpa using hn); simp only [List.getElem_cons_succ]; omega
        · intro h n hn
          have := h (n + 1) (by simpa using hn)
          simp only [List.getElem_cons_succ] at this; omega
      · simp only [trivLoop, ne_eq, hd, not_false_eq_true, if_true]
        constructor
        · intro h; simp at h
        · intro h; exact absurd (h 0 (by simp)) (by simpa using hd)
  have h := this P 0
  simp only [Nat.zero_add] at h
  exact h

/-- **C16.** `permute(P,from,to)` puts `from[i]` at position `P[i]`. -/
theorem C16_permute {α} (P : Permutation) (h : IsPerm P) (fr dst : List α) (h1 : fr.length = P.length)
    (h2 : dst.length = P.length) :
    ∃ r, permute P fr dst = .ok r ∧ r.length = P.length ∧
      ∀ (i d : Nat), P[i]? = some d → r[d]? = fr[i]? := by
  obtain ⟨r, e, ha, hb, _⟩ := permuteLoop_spec P fr dst h1 h.nodup (fun d hd => by rw [h2]; exact h.lt hd)
  exact ⟨r, e, by omega, hb⟩

/-- **C16.** `calcPerm(s1,s2)` for two lists with the same distinct elements: a permutation that sends
the position of each element in `s1` to its position in `s2`. -/
theorem C16_calcPerm {α} [DecidableEq α] (s1 s2 : List α) (h : s1.Perm s2) (hnd : s1.Nodup) :
    ∃ P, calcPerm s1 s2 = .ok P ∧ IsPerm P ∧ P.length = s1.length ∧
      ∀ (i d : Nat), P[i]? = some d → s2[d]? = s1[i]? := by
  have loop : ∀ (t : List α) (k : Nat) (P : Permutation), P.length = s1.length → t.Nodup →
      (∀ x ∈ t, x ∈ s1) →
      ∃ Q, calcLoop s1 t k P = .ok Q ∧ Q.length = s1.length ∧
        (∀ (i j : Nat) (x : α), s1[i]? = some x → t[j]? = some x → Q[i]? = some (k + j)) ∧
        (∀ (i : Nat) (x : α), s1[i]? = some x → x ∉ t → Q[i]? = P[i]?) := by
    intro t
    induction t with
    | nil => intro k P hP _ _; exact ⟨P, rfl, hP, by simp, by simp⟩
    | cons v t ih =>
      intro k P hP ht hsub
      obtain ⟨hv, ht'⟩ := List.nodup_cons.1 ht
      have hvs := hsub v (by simp)
      obtain ⟨i1, hi1⟩ : ∃ i1, s1.findIdx? (fun x => v == x) = some i1 := by
        rw [← Option.isSome_iff_exists, List.findIdx?_isSome, List.any_eq_true]
        exact ⟨v, hvs, by simp⟩
      obtain ⟨hlt, heq, _⟩ := List.findIdx?_eq_some_iff_getElem.1 hi1
      have heq : s1[i1] = v := by have := heq; simp at this; exact this.symm
      obtain ⟨Q, e, h1, h2, h3⟩ := ih (k + 1) (P.set i1 k) (by simpa using hP) ht'
        (fun x hx => hsub x (by simp [hx]))
      refine ⟨Q, ?_, h1, ?_, ?_⟩
      · simp only [calcLoop, hi1, setFromTo]
        rw [if_pos (by omega)]
        exact e
      · intro i j x hx hj
        cases j with
        | zero =>
          simp at hj; subst hj
          have hil := (List.getElem?_eq_some_iff.1 hx)
          have : i = i1 := by
            obtain ⟨hi, hxi⟩ := hil
            exact (List.Nodup.getElem_inj_iff hnd).1 (by rw [hxi, heq])
          subst this
          rw [h3 i v hx hv, List.getElem?_set_self (by omega)]; simp
        | succ j =>
          rw [h2 i j x hx (by simpa using hj)]; congr 1; omega
      · intro i x hx hxt
        simp only [List.mem_cons, not_or] at hxt
        rw [h3 i x hx hxt.2, List.getElem?_set_ne]
        intro hh
        subst hh
        obtain ⟨hi, hxi⟩ := List.getElem?_eq_some_iff.1 hx
        exact hxt.1 (by rw [← hxi, heq])
  obtain ⟨P, e, hlen, h2, _⟩ := loop s2 0 (ident s1.length) (by simp [ident]) (h.nodup_iff.1 hnd)
    (fun x hx => h.mem_iff.2 hx)
  have hval : ∀ i (hi : i < s1.length), ∃ d : Nat, P[i]? = some d ∧ s2[d]? = some s1[i] := by
    intro i hi
    obtain ⟨d, hd⟩ := List.mem_iff_getElem?.1 (h.mem_iff.1 (List.getElem_mem hi))
    refine ⟨d, ?_, hd⟩
    rw [h2 i d _ (List.getElem?_eq_getElem hi) hd]; simp
  have hval' : ∀ (i d : Nat), P[i]? = some d → s2[d]? = s1[i]? := by
    intro i d hd
    have hi : i < s1.length := by have := (List.getElem?_eq_some_iff.1 hd).1; omega
    obtain ⟨d', h3, h4⟩ := hval i hi
    rw [hd] at h3
    have : d = d' := by simpa using h3
    subst this
    rw [h4, List.getElem?_eq_getElem hi]
  refine ⟨P, e, ?_, hlen, hval'⟩
  refine isPerm_of_nodup ?_ ?_
  · rw [List.nodup_iff_getElem?_ne_getElem?]
    intro a b hab hb heq
    obtain ⟨d, h3, h4⟩ := hval a (by omega)
    obtain ⟨d', h5, h6⟩ := hval b (by omega)
    rw [h3, h5] at heq
    have : d = d' := by simpa using heq
    subst this
    rw [h4] at h6
    have := (List.Nodup.getElem_inj_iff hnd).1 (by simpa using h6 : s1[a] = s1[b])
    omega
  · intro x hx
    obtain ⟨i, hi⟩ := List.mem_iff_getElem?.1 hx
    have := hval' i x hi
    have hil := (List.getElem?_eq_some_iff.1 hi).1
    rw [List.getElem?_eq_getElem (by omega : i < s1.length)] at this
    have := (List.getElem?_eq_some_iff.1 this).1
    have := h.length_eq
    omega

example : [5, 6, 7].Perm [7, 5, 6] ∧
    calcPerm [5, 6, 7] [7, 5, 6] = .ok [1, 2, 0] := by decide

/-- **C16.** If some element of `s2` is missing from `s1`, `calcPerm` throws. -/
theorem C16_calcPerm_throws {α} [DecidableEq α] (s1 s2 : List α) (x : α) (hx : x ∈ s2) (hn : x ∉ s1) :
    calcPerm s1 s2 = .throw := by
  have loop : ∀ (t : List α) (k : Nat) (P : Permutation), P.length = s1.length → x ∈ t →
      calcLoop s1 t k P = .throw := by
    intro t
    induction t with
    | nil => intro _ _ _ h; simp at h
    | cons v t ih =>
      intro k P hP h
      simp only [calcLoop]
      cases hf : s1.findIdx? (fun y => v == y) with
      | none => rfl
      | some i1 =>
        obtain ⟨hlt, heq, _⟩ := List.findIdx?_eq_some_iff_getElem.1 hf
        have heq : s1[i1] = v := by have := heq; simp at this; exact this.symm
        have hv : x ≠ v := fun h => hn (by rw [h, ← heq]; exact List.getElem_mem hlt)
        have hxt : x ∈ t := by
          rcases List.mem_cons.1 h with h | h
          · exact absurd h hv
          · exact h
        simp only [setFromTo]
        rw [if_pos (by omega)]
        exact ih _ _ (by simpa using hP) hxt
  exact loop s2 0 _ (by simp [ident]) hx

/-- **C16, boundary.** A shorter second list is not detected: the result is not a permutation. -/
theorem C16_calcPerm_shorter_counterexample :
    calcPerm [5, 6] [6] = .ok [0, 0] ∧ ¬ IsPerm [0, 0] := by decide

end Verif.Tensor
