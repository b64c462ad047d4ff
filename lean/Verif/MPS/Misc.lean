import Verif.Base
import Mathlib.Data.Matrix.Mul
import Mathlib.Algebra.Algebra.Rat
import Mathlib.Algebra.Algebra.Defs
import Mathlib.Data.Nat.Factorial.Basic
import Mathlib.Algebra.BigOperators.Intervals
import Mathlib.Tactic.Ring
import Mathlib.Tactic.Linarith
import Mathlib.Tactic.FieldSimp
import Mathlib.Data.Int.ModEq
import Mathlib.Algebra.Module.Rat
import Mathlib.Data.Matrix.Basic

/-!
# Periodic wrapping, tree sums, products of site operators, Trotter gates
-/

namespace Verif.Misc

/-! ## `periodicWrap` (mps.cc:1380-1389) -/

/-- `while(j < 1) j += N;` with at most `fuel` tests; `none`: not finished. mps.cc:1384 -/
def wrapUp (N : Int) : Nat → Int → Option Int
  | 0, _ => none
  | f + 1, j => if j < 1 then wrapUp N f (j + N) else some j

/-- `while(j > N) j -= N;`. mps.cc:1387 -/
def wrapDown (N : Int) : Nat → Int → Option Int
  | 0, _ => none
  | f + 1, j => if j > N then wrapDown N f (j - N) else some j

/-- `periodicWrap`. mps.cc:1380-1389. Unbounded integers. -/
def periodicWrap (fuel : Nat) (j N : Int) : Option Int :=
  if j < 1 then wrapUp N fuel j else if j > N then wrapDown N fuel j else some j

theorem wrapUp_spec {N : Int} (hN : 0 < N) : ∀ (f : Nat) (j : Int), j ≤ N → 1 - j < f → 1 ≤ f →
    ∃ r, wrapUp N f j = some r ∧ 1 ≤ r ∧ r ≤ N ∧ r ≡ j [ZMOD N] := by
  intro f
  induction f with
  | zero => intro j _ _ h; omega
  | succ f ih =>
    intro j hj hf _
    rw [wrapUp]
    split_ifs with h
    · obtain ⟨r, h1, h2, h3, h4⟩ := ih (j + N) (by omega) (by push_cast at hf; omega) (by push_cast at hf; omega)
      exact ⟨r, h1, h2, h3, h4.trans (by simp)⟩
    · exact ⟨j, rfl, by omega, hj, Int.ModEq.refl _⟩

theorem wrapDown_spec {N : Int} (hN : 0 < N) : ∀ (f : Nat) (j : Int), 1 ≤ j → j - N < f → 1 ≤ f →
    ∃ r, wrapDown N f j = some r ∧ 1 ≤ r ∧ r ≤ N ∧ r ≡ j [ZMOD N] := by
  intro f
  induction f with
  | zero => intro j _ _ h; omega
  | succ f ih =>
    intro j hj hf _
    rw [wrapDown]
    split_ifs with h
    · obtain ⟨r, h1, h2, h3, h4⟩ := ih (j - N) (by omega) (by push_cast at hf; omega) (by push_cast at hf; omega)
      exact ⟨r, h1, h2, h3, h4.trans (by simp)⟩
    · exact ⟨j, rfl, hj, by omega, Int.ModEq.refl _⟩

/-- **C54.** For positive `N` the loop ends and the result is the site in `1..N` congruent to `j`. -/
theorem C54_wrap {N : Int} (hN : 0 < N) (j : Int) :
    ∃ r, (∃ f0, ∀ f, f0 ≤ f → periodicWrap f j N = some r) ∧ 1 ≤ r ∧ r ≤ N ∧ r ≡ j [ZMOD N] := by
  by_cases h1 : j < 1
  · have uniq : ∀ f : Nat, (1 - j).toNat + 1 ≤ f → ∃ r, wrapUp N f j = some r ∧ 1 ≤ r ∧ r ≤ N ∧ r ≡ j [ZMOD N] :=
      fun f hf => wrapUp_spec hN f j (by omega) (by omega) (by omega)
    obtain ⟨r, e, a, b, c⟩ := uniq _ (le_refl _)
    refine ⟨r, ⟨(1 - j).toNat + 1, fun f hf => ?_⟩, a, b, c⟩
    obtain ⟨r', e', a', b', c'⟩ := uniq f hf
    rw [periodicWrap, if_pos h1, e']
    congr 1
    have := (c'.trans c.symm).dvd
    obtain ⟨k, hk⟩ := this
    have : k = 0 := by nlinarith
    subst this; omega
  · by_cases h2 : j > N
    · have uniq : ∀ f : Nat, (j - N).toNat + 1 ≤ f → ∃ r, wrapDown N f j = some r ∧ 1 ≤ r ∧ r ≤ N ∧ r ≡ j [ZMOD N] :=
        fun f hf => wrapDown_spec hN f j (by omega) (by omega) (by omega)
      obtain ⟨r, e, a, b, c⟩ := uniq _ (le_refl _)
      refine ⟨r, ⟨(j - N).toNat + 1, fun f hf => ?_⟩, a, b, c⟩
      obtain ⟨r', e', a', b', c'⟩ := uniq f hf
      rw [periodicWrap, if_neg h1, if_pos h2, e']
      congr 1
      have := (c'.trans c.symm).dvd
      obtain ⟨k, hk⟩ := this
      have : k = 0 := by nlinarith
      subst this; omega
    · exact ⟨j, ⟨0, fun f _ => by rw [periodicWrap, if_neg h1, if_neg h2]⟩, by omega, by omega, Int.ModEq.refl _⟩

/-- **C54, `N = 0`.** The loop never ends. -/
theorem C54_zero (j : Int) (f : Nat) : periodicWrap f j 0 = none := by
  have up : ∀ (f : Nat), j < 1 → wrapUp 0 f j = none := by
    intro f h
    induction f with
    | zero => rfl
    | succ f ih => rw [wrapUp, if_pos h, Int.add_zero, ih]
  have dn : ∀ (f : Nat), j > 0 → wrapDown 0 f j = none := by
    intro f h
    induction f with
    | zero => rfl
    | succ f ih => rw [wrapDown, if_pos h, Int.sub_zero, ih]
  rw [periodicWrap]
  split_ifs with h1 h2
  · exact up f h1
  · exact dn f h2
  · omega

example : periodicWrap 10 (-7) 3 = some 2 ∧ periodicWrap 10 11 4 = some 3 := by decide

/-! ## `sum` of a vector of MPS (mps.cc:1471-1502) -/

variable {M : Type*}

/-- `terms.at(i)`. -/
def at' (l : List M) (i : Nat) : Res M :=
  match l[i]? with
  | some x => .ok x
  | none => .throw

/-- The loop adding in pairs: `k` iterations left, `n` and `np` the two counters. mps.cc:1492-1495 -/
def pairLoop (add : M → M → M) (terms : List M) : Nat → Nat → Nat → List M → Res (List M)
  | 0, _, _, acc => .ok acc
  | k + 1, n, np, acc =>
    if n < terms.length - 1 then
      (at' terms n).bind fun a => (at' terms (n + 1)).bind fun b =>
        if np < acc.length then pairLoop add terms k (n + 2) (np + 1) (acc.set np (add a b)) else .throw
    else .ok acc

/-- The vector `newterms` of one round. mps.cc:1490-1496 -/
def round (add : M → M → M) (dflt : M) (terms : List M) : Res (List M) :=
  let Nt := terms.length
  let nsize := if Nt % 2 = 0 then Nt / 2 else (Nt - 1) / 2 + 1
  (pairLoop add terms Nt 0 0 (List.replicate nsize dflt)).bind fun nt =>
    if Nt % 2 = 1 then
      match terms.getLast? with
      | some x => if nsize - 1 < nt.length then .ok (nt.set (nsize - 1) x) else .throw
      | none => .ub
    else .ok nt

/-- `sum(vector)`: `add` is the sum of two, `dflt` the default-constructed MPS; at most `fuel` nested
calls (`none`: not finished). mps.cc:1471-1502 -/
def sumVec (add : M → M → M) (dflt : M) : Nat → List M → Option (Res M)
  | 0, _ => none
  | f + 1, terms =>
    if terms.length = 2 then
      some ((at' terms 0).bind fun a => (at' terms 1).bind fun b => .ok (add a b))
    else if terms.length = 1 then some (at' terms 0)
    else if terms.length > 2 then
      match round add dflt terms with
      | .ok nt => sumVec add dflt f nt
      | .throw => some .throw
      | .ub => some .ub
    else some (.ok dflt)

/-- Adding in pairs. -/
def pairUp (add : M → M → M) : List M → List M
  | [] => []
  | [a] => [a]
  | a :: b :: l => add a b :: pairUp add l

theorem pairUp_length (add : M → M → M) : ∀ l : List M, (pairUp add l).length = (l.length + 1) / 2
  | [] => by simp [pairUp]
  | [_] => by simp [pairUp]
  | a :: b :: l => by simp only [pairUp, List.length_cons, pairUp_length add l]; omega

theorem pairLoop_eq (add : M → M → M) (dflt : M) : ∀ (l pre done : List M) (k : Nat), l.length ≤ 2 * k →
    pre.length = 2 * done.length →
    pairLoop add (pre ++ l) k pre.length done.length (done ++ List.replicate ((l.length + 1) / 2) dflt) =
      .ok (done ++ if l.length % 2 = 0 then pairUp add l else (pairUp add l).dropLast ++ [dflt])
  | [], pre, done, k, _, _ => by
    cases k with
    | zero => simp [pairLoop, pairUp]
    | succ k => rw [pairLoop, if_neg (by simp)]; simp [pairUp]
  | [a], pre, done, k, hk, _ => by
    obtain ⟨k, rfl⟩ : ∃ j, k = j + 1 := ⟨k - 1, by simp at hk; omega⟩
    rw [pairLoop, if_neg (by simp)]; simp [pairUp]
  | a :: b :: l, pre, done, k, hk, hp => by
    obtain ⟨k, rfl⟩ : ∃ j, k = j + 1 := ⟨k - 1, by simp at hk; omega⟩
    have e1 : at' (pre ++ a :: b :: l) pre.length = .ok a := by simp [at']
    have e2 : at' (pre ++ a :: b :: l) (pre.length + 1) = .ok b := by simp [at']
    have hl : ((a :: b :: l).length + 1) / 2 = (l.length + 1) / 2 + 1 := by simp; omega
    rw [pairLoop, if_pos (by simp), e1, Res.bind_ok, e2, Res.bind_ok, hl, List.replicate_succ, if_pos (by simp),
      List.set_append_right _ _ (le_refl _), Nat.sub_self, List.set_cons_zero]
    have ih := pairLoop_eq add dflt l (pre ++ [a, b]) (done ++ [add a b]) k (by simp at hk; omega) (by simp; omega)
    simp only [List.append_assoc, List.length_append, List.length_cons, List.length_nil, List.cons_append, List.nil_append] at ih
    rw [ih]
    have hpar : (a :: b :: l).length % 2 = l.length % 2 := by simp only [List.length_cons]; omega
    rw [hpar]
    split_ifs with h
    · simp [pairUp]
    · have : pairUp add l ≠ [] := by
        intro h0
        have := pairUp_length add l
        rw [h0] at this; simp at this; omega
      obtain ⟨x, xs, hx⟩ := List.exists_cons_of_ne_nil this
      simp [pairUp, hx]

theorem pairUp_getLast (add : M → M → M) : ∀ l : List M, l.length % 2 = 1 → (pairUp add l).getLast? = l.getLast?
  | [], h => by simp at h
  | [a], _ => rfl
  | a :: b :: l, h => by
    have := pairUp_getLast add l (by simp only [List.length_cons] at h; omega)
    rw [pairUp, List.getLast?_cons, this]
    cases l with
    | nil => simp at h
    | cons c l => simp [List.getLast?_cons]

theorem round_eq (add : M → M → M) (dflt : M) (terms : List M) : round add dflt terms = .ok (pairUp add terms) := by
  have hloop := pairLoop_eq add dflt terms [] [] terms.length (by omega) rfl
  simp only [List.nil_append, List.length_nil] at hloop
  rw [round]
  have hn : (if terms.length % 2 = 0 then terms.length / 2 else (terms.length - 1) / 2 + 1) = (terms.length + 1) / 2 := by
    split_ifs <;> omega
  rw [hn, hloop, Res.bind_ok]
  by_cases h : terms.length % 2 = 0
  · rw [if_pos h, if_neg (by omega)]
  · rw [if_neg h, if_pos (by omega)]
    have h1 := pairUp_getLast add terms (by omega)
    have h2 := pairUp_length add terms
    have hne : pairUp add terms ≠ [] := by
      intro h0; rw [h0] at h2; simp at h2; omega
    rw [List.getLast?_eq_some_getLast hne] at h1
    rw [← h1]
    dsimp only
    rw [if_pos (by simp; omega)]
    congr 1
    rw [List.set_append_right _ _ (by simp; omega)]
    simp only [List.length_dropLast, h2, Nat.sub_self, List.set_cons_zero]
    exact List.dropLast_append_getLast hne

theorem pairUp_prod {V : Type*} [Monoid V] {add : M → M → M} {val : M → V} (h : ∀ a b, val (add a b) = val a * val b) :
    ∀ l : List M, ((pairUp add l).map val).prod = (l.map val).prod
  | [] => rfl
  | [_] => rfl
  | a :: b :: l => by
    simp only [pairUp, List.map_cons, List.prod_cons, pairUp_prod h l, h, mul_assoc]

/-- **C42.** Summing a non-empty vector uses every term exactly once, in order: whatever a pairwise sum
combines, the result combines the whole list. (`V` is any monoid: with an additive group of states it
is the sum, with lists of terms it says which terms are used.) -/
theorem C42_sum {V : Type*} [Monoid V] {add : M → M → M} {val : M → V} (h : ∀ a b, val (add a b) = val a * val b)
    (dflt : M) : ∀ (f : Nat) {terms : List M}, terms ≠ [] → terms.length ≤ f →
      ∃ r, sumVec add dflt f terms = some (.ok r) ∧ val r = (terms.map val).prod := by
  intro f
  induction f with
  | zero => intro terms hne hl; exact absurd (List.length_eq_zero_iff.1 (by omega)) hne
  | succ f ih =>
    intro terms hne hl
    rw [sumVec]
    match terms, hne, hl with
    | [a], _, _ => exact ⟨a, rfl, by simp⟩
    | [a, b], _, _ => exact ⟨add a b, rfl, by simp [h]⟩
    | a :: b :: c :: l, _, hl =>
      rw [if_neg (by simp), if_neg (by simp), if_pos (by simp), round_eq]
      dsimp only
      have hlen := pairUp_length add (a :: b :: c :: l)
      obtain ⟨r, e, hv⟩ := ih (terms := pairUp add (a :: b :: c :: l)) (by simp [pairUp])
        (by rw [hlen]; simp at hl ⊢; omega)
      exact ⟨r, e, hv.trans (pairUp_prod h _)⟩

/-- **C42, empty vector.** The result is a default-constructed MPS. -/
theorem C42_empty (add : M → M → M) (dflt : M) (f : Nat) : sumVec add dflt (f + 1) [] = some (.ok dflt) := rfl

example : sumVec (fun a b : List Nat => a ++ b) [] 5 [[1], [2], [3], [4], [5]] = some (.ok [1, 2, 3, 4, 5]) := by
  decide +kernel

/-! ## Products of site operators by name (siteset.h:362-419, itensor.cc:1287-1294) -/

variable {K : Type*} [CommRing K] {d : Nat}

/-- A site operator as an ITensor with indices `dag(s)` and `s'`: element at (unprimed, primed). -/
abbrev SiteOp (K : Type*) (d : Nat) := Fin d → Fin d → K

/-- `multSiteOps`: `A` is primed to `(s', s'')`, contracted with `B` over `s'`, and `s''` is set back to
`s'`. itensor.cc:1287-1294. The index is assumed to carry the tag "Site". -/
def multSiteOps (A B : SiteOp K d) : SiteOp K d := fun s s'' => ∑ s' : Fin d, A s' s'' * B s s'

/-- The matrix of a site operator: rows are values of the primed index. -/
def toMatrix (A : SiteOp K d) : Matrix (Fin d) (Fin d) K := fun i j => A j i

/-- The identity operator. siteset.h:370-373 -/
def idOp : SiteOp K d := fun s s' => if s = s' then 1 else 0

/-- `SiteSet::op` for a name without `*`: `site` is the `op` method of the site type, `proj` the
projector selected by the arguments. siteset.h:368-397, 417 -/
def opBase (site : List Char → Res (SiteOp K d)) (proj : Res (SiteOp K d)) (name : List Char) : Res (SiteOp K d) :=
  if name = ['I', 'd'] then .ok idOp
  else if name = ['P', 'r', 'o', 'j'] then proj
  else if name = ['F'] then
    match site name with
    | .throw => .ok idOp
    | r => r
  else site name

/-- `SiteSet::op`. siteset.h:362-419: split at the first `*`. The two factors are evaluated left to right
(unspecified in C++). `fuel` bounds the recursion; a name of length below it is enough. -/
def op (site : List Char → Res (SiteOp K d)) (proj : Res (SiteOp K d)) : Nat → List Char → Res (SiteOp K d)
  | 0, _ => .ub
  | f + 1, name =>
    if '*' ∈ name then
      let n := name.idxOf '*'
      (op site proj f (name.take n)).bind fun A => (op site proj f (name.drop (n + 1))).bind fun B =>
        .ok (multSiteOps A B)
    else opBase site proj name

theorem toMatrix_mult (A B : SiteOp K d) : toMatrix (multSiteOps A B) = toMatrix A * toMatrix B := by
  ext i j
  rw [Matrix.mul_apply]
  rfl

theorem toMatrix_id : toMatrix (idOp : SiteOp K d) = 1 := by
  ext i j
  simp [toMatrix, idOp, Matrix.one_apply, eq_comm]

/-- **C55.** The operator named `n₁*n₂*...*nₖ` is the matrix product of the named operators in the
written order (the last acts first). -/
theorem C55_product (site : List Char → Res (SiteOp K d)) (proj : Res (SiteOp K d)) :
    ∀ (names : List (List Char)) (ops : List (SiteOp K d)), names ≠ [] → (∀ n ∈ names, '*' ∉ n) →
      List.Forall₂ (fun n A => opBase site proj n = .ok A) names ops →
      ∀ f, (List.intercalate ['*'] names).length < f →
      ∃ A, op site proj f (List.intercalate ['*'] names) = .ok A ∧ toMatrix A = (ops.map toMatrix).prod := by
  intro names
  induction names with
  | nil => intro ops h; exact absurd rfl h
  | cons n names ih =>
    intro ops _ hstar hops f hf
    cases hops with
    | @cons _ A _ ops hA hops =>
      obtain ⟨f, rfl⟩ : ∃ g, f = g + 1 := ⟨f - 1, by omega⟩
      have hn := hstar n (by simp)
      cases names with
      | nil =>
        cases hops
        refine ⟨A, ?_, by simp⟩
        rw [op]
        simp [List.intercalate, hn, hA]
      | cons n' names =>
        have hjoin : List.intercalate ['*'] (n :: n' :: names) = n ++ '*' :: List.intercalate ['*'] (n' :: names) := by
          simp [List.intercalate, List.intersperse]
        rw [hjoin] at hf ⊢
        rw [List.length_append, List.length_cons] at hf
        obtain ⟨B, hB, hBm⟩ := ih ops (by simp) (fun x hx => hstar x (by simp [hx])) hops f (by omega)
        have hidx : (n ++ '*' :: List.intercalate ['*'] (n' :: names)).idxOf '*' = n.length := by
          rw [List.idxOf_append_of_notMem hn]; simp
        refine ⟨multSiteOps A B, ?_, by rw [toMatrix_mult, hBm]; simp⟩
        rw [op, if_pos (by simp)]
        dsimp only
        rw [hidx, List.take_left]
        have hop1 : op site proj f n = .ok A := by
          obtain ⟨f, rfl⟩ : ∃ g, f = g + 1 := ⟨f - 1, by omega⟩
          rw [op, if_neg hn, hA]
        rw [hop1, Res.bind_ok, show n ++ '*' :: List.intercalate ['*'] (n' :: names) =
          (n ++ ['*']) ++ List.intercalate ['*'] (n' :: names) by simp,
          show n.length + 1 = (n ++ ['*']).length by simp, List.drop_left, hB, Res.bind_ok]

/-- **C55, unknown names.** If a factor's operator cannot be made, neither can the product. -/
theorem C55_fails (site : List Char → Res (SiteOp K d)) (proj : Res (SiteOp K d)) :
    ∀ (names : List (List Char)), (∀ n ∈ names, '*' ∉ n) → (∃ n ∈ names, ∀ A, opBase site proj n ≠ .ok A) →
      ∀ f A, op site proj f (List.intercalate ['*'] names) ≠ .ok A := by
  intro names
  induction names with
  | nil => rintro _ ⟨n, hn, _⟩; simp at hn
  | cons n names ih =>
    intro hstar hbad f A hA
    cases f with
    | zero => simp [op] at hA
    | succ f =>
      have hn := hstar n (by simp)
      cases names with
      | nil =>
        obtain ⟨m, hm, hb⟩ := hbad
        obtain rfl : m = n := by simpa using hm
        rw [op] at hA
        simp [List.intercalate, hn] at hA
        exact hb A hA
      | cons n' names =>
        have hjoin : List.intercalate ['*'] (n :: n' :: names) = n ++ '*' :: List.intercalate ['*'] (n' :: names) := by
          simp [List.intercalate, List.intersperse]
        have hidx : (n ++ '*' :: List.intercalate ['*'] (n' :: names)).idxOf '*' = n.length := by
          rw [List.idxOf_append_of_notMem hn]; simp
        rw [hjoin, op, if_pos (by simp)] at hA
        dsimp only at hA
        rw [hidx, List.take_left] at hA
        obtain ⟨A1, h1, hA⟩ := Res.bind_eq_ok.1 hA
        obtain ⟨B1, h2, hA⟩ := Res.bind_eq_ok.1 hA
        rw [show n ++ '*' :: List.intercalate ['*'] (n' :: names) =
          (n ++ ['*']) ++ List.intercalate ['*'] (n' :: names) by simp,
          show n.length + 1 = (n ++ ['*']).length by simp, List.drop_left] at h2
        obtain ⟨m, hm, hb⟩ := hbad
        rcases List.mem_cons.1 hm with rfl | hm
        · cases f with
          | zero => simp [op] at h1
          | succ f => rw [op, if_neg hn] at h1; exact hb _ h1
        · exact ih (fun x hx => hstar x (by simp [hx])) ⟨m, hm, hb⟩ f B1 h2

/-- Example: spin operators, `S+*S-` is the projector on up. -/
example : ∃ A, op (K := Int) (d := 2) (fun n => if n = ['+'] then .ok (fun s s' => if s = 1 ∧ s' = 0 then 1 else 0)
      else if n = ['-'] then .ok (fun s s' => if s = 0 ∧ s' = 1 then 1 else 0) else .throw) .throw 9 ['+', '*', '-'] = .ok A ∧
      A 0 0 = 1 ∧ A 1 1 = 0 ∧ A 0 1 = 0 := ⟨_, rfl, by decide, by decide, by decide⟩

/-! ## `BondGate` (bondgate.h:77-167) -/

variable {F : Type*} [Field F] [CharZero F] {R : Type*} [Ring R] [Algebra F R]

/-- The loop of the constructor: `ord` counts down to one, the result is the last `gate_`. `x` is the
scaled Hamiltonian, `R` the operators on the two sites; contracting with the tag-shifted `bondH` applies
`x` after the gate. The scalars form a field of characteristic zero. bondgate.h:126-139 -/
def gateLoop (F : Type*) [Field F] {R : Type*} [Ring R] [Algebra F R] (x : R) : Nat → R → R → R
  | 0, _, gate => gate
  | ord + 1, term, _ =>
    let term := ((1 : F) / (ord + 1 : ℕ)) • term
    let gate := 1 + term
    gateLoop F x ord (x * gate) gate

/-- The gate for scaled Hamiltonian `x`. bondgate.h:126-139. `gate_` is default constructed before. -/
def expGate (F : Type*) [Field F] {R : Type*} [Ring R] [Algebra F R] (x : R) : R := gateLoop F x 100 x 0

/-- `BondGate(sites,i1,i2,type,tau,H)`: `i` is `Complex_i`. bondgate.h:116-139 -/
def bondGate (i : F) (isReal : Bool) (tau : F) (H : R) : R :=
  let h := (-tau) • H
  expGate F (if isReal then i • h else h)

theorem gateLoop_spec (x : R) : ∀ (ord n : Nat) (t : R) (g : R), 1 ≤ ord →
    t = ∑ k ∈ Finset.range (n + 1), ((Nat.factorial ord : F) / (Nat.factorial (ord + k) : F)) • x ^ (k + 1) →
    gateLoop F x ord t g =
      ∑ k ∈ Finset.range (ord + n + 1), ((1 : F) / (Nat.factorial k : F)) • x ^ k := by
  intro ord
  induction ord with
  | zero => intro n t g h; omega
  | succ ord ih =>
    intro n t g _ ht
    rw [gateLoop]
    have hgate : (1 : R) + ((1 : F) / (ord + 1 : ℕ)) • t =
        ∑ k ∈ Finset.range (n + 2), ((Nat.factorial ord : F) / (Nat.factorial (ord + k) : F)) • x ^ k := by
      rw [Finset.sum_range_succ', ht, Finset.smul_sum, add_comm]
      have h0 : (Nat.factorial ord : F) ≠ 0 := by exact_mod_cast Nat.factorial_ne_zero ord
      congr 1
      · apply Finset.sum_congr rfl
        intro k _
        rw [smul_smul]
        congr 1
        rw [show ord + 1 + k = ord + (k + 1) by omega, Nat.factorial_succ]
        have h1 : ((ord + 1 : ℕ) : F) ≠ 0 := by exact_mod_cast Nat.succ_ne_zero ord
        have h2 : (Nat.factorial (ord + (k + 1)) : F) ≠ 0 := by exact_mod_cast Nat.factorial_ne_zero _
        push_cast at h1 ⊢
        field_simp
      · simp [h0]
    cases ord with
    | zero =>
      rw [gateLoop, hgate]
      rw [show 0 + 1 + n + 1 = n + 2 by omega]
      apply Finset.sum_congr rfl
      intro k _
      simp
    | succ ord =>
      rw [ih (n + 1) _ _ (by omega)]
      · rw [show ord + 1 + (n + 1) + 1 = ord + 1 + 1 + n + 1 by omega]
      · rw [hgate, Finset.mul_sum]
        apply Finset.sum_congr rfl
        intro k _
        rw [mul_smul_comm, pow_succ']

/-- **C52.** The gate is the Taylor polynomial of order 100 of `exp(-tau H)`, or of `exp(-i tau H)` for
real time. -/
theorem C52_gate (i : F) (isReal : Bool) (tau : F) (H : R) :
    bondGate i isReal tau H = ∑ k ∈ Finset.range 101, ((1 : F) / (Nat.factorial k : F)) •
      (if isReal then -((i * tau) • H) else -(tau • H)) ^ k := by
  rw [bondGate, expGate]
  have hx : (if isReal = true then i • -tau • H else -tau • H) = if isReal then -((i * tau) • H) else -(tau • H) := by
    split_ifs
    · rw [neg_smul, smul_neg, smul_smul]
    · rw [neg_smul]
  rw [hx]
  refine gateLoop_spec _ 100 0 _ _ (by omega) ?_
  rw [Finset.sum_range_one]
  have : (Nat.factorial 100 : F) ≠ 0 := by exact_mod_cast Nat.factorial_ne_zero 100
  simp only [Nat.add_zero, div_self this, one_smul, zero_add, pow_one]

/-- Example: for a nilpotent Hamiltonian the gate is `1 - tau H`. -/
example (tau : ℚ) (H : Matrix (Fin 2) (Fin 2) ℚ) (h : H * H = 0) : bondGate 0 false tau H = 1 - tau • H := by
  rw [C52_gate, Finset.sum_range_succ', Finset.sum_range_succ', Finset.sum_eq_zero]
  · simp only [zero_add, Nat.factorial, pow_one, pow_zero]; simp [neg_add_eq_sub]
  · intro k _
    have : (if false = true then -((0 * tau) • H) else -(tau • H)) ^ (k + 1 + 1) = 0 := by
      rw [if_neg (by decide), pow_succ, pow_succ, mul_assoc]
      simp [h]
    rw [this, smul_zero]

/-- The swap gate: `gate(s1,s2,s1',s2') = a(s1,s2') b(s2,s1')` with `a`, `b` set to one at equal values
of `range1(s1)`; a value beyond the other site's dimension throws. bondgate.h:154-167 -/
def swapGate (d1 d2 : Nat) : Res (Nat → Nat → Nat → Nat → K) :=
  if d1 ≤ d2 then
    .ok fun s1 s2 t1 t2 => (if s1 = t2 ∧ s1 < d1 then 1 else 0) * (if s2 = t1 ∧ s2 < d1 then 1 else 0)
  else .throw

/-- **C52, swap gates.** On sites of equal dimension the gate exchanges the two sites. -/
theorem C52_swap (d : Nat) (psi : Nat → Nat → K) : ∃ g, swapGate (K := K) d d = .ok g ∧
    ∀ t1 t2, t1 < d → t2 < d →
      ∑ s1 ∈ Finset.range d, ∑ s2 ∈ Finset.range d, psi s1 s2 * g s1 s2 t1 t2 = psi t2 t1 := by
  refine ⟨_, if_pos (le_refl _), fun t1 t2 h1 h2 => ?_⟩
  rw [Finset.sum_eq_single t2, Finset.sum_eq_single t1]
  · simp [h1, h2]
  · intro b _ hb; simp [hb]
  · intro h; exact absurd (Finset.mem_range.2 h1) h
  · intro b _ hb; simp [hb]
  · intro h; exact absurd (Finset.mem_range.2 h2) h

/-- **Swap gates between sites of different dimension** drop part of the space or throw. -/
theorem C52_swap_counterexample : (∃ g, swapGate (K := Int) 1 2 = .ok g ∧ ∀ s1 s2 t1, g s1 s2 t1 1 = 0) ∧
    swapGate (K := Int) 2 1 = .throw :=
  ⟨⟨_, if_pos (by decide), fun s1 s2 t1 => by simp; intro h; omega⟩, if_neg (by decide)⟩

end Verif.Misc
