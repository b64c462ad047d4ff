import Verif.MPS.DmrgNum
import Verif.QDense.FluxC82

/-!
# The size and the diagonal of a projected operator

Sources: `LocalOp::size` and `LocalOp::diag`, `/repo/itensor/mps/localop.h:44-322` and `408-530`. Property C115.
-/

namespace Verif.LocalOp

/-! ## `size` -/

/-- What `size` looks at in an index: which one it is, its dimension, its prime level, and whether it has the tag `Site`. -/
structure Ix where
  id : Nat
  dim : Nat
  plev : Nat
  site : Bool
  deriving DecidableEq, Repr

/-- The members of `LocalOp`; a tensor is the list of its indices. A null pointer and a pointer to a tensor without storage are both
`none`, which `LIsNull` and `RIsNull` treat alike; for `Op1_` and `Op2_` only the null pointer is meant. localop.h:44-51, 310-322 -/
structure Op where
  op1 : Option (List Ix)
  op2 : Option (List Ix)
  L : Option (List Ix)
  R : Option (List Ix)
  size : Option Nat
  nc : Int
  deriving DecidableEq, Repr

/-- `updateOp(Op1)`. localop.h:259-268 -/
def updateOp1 (_ : Op) (a : List Ix) : Op := ⟨some a, none, none, none, none, 1⟩

/-- `updateOp(Op1,Op2)`. localop.h:270-279 -/
def updateOp2 (_ : Op) (a b : List Ix) : Op := ⟨some a, some b, none, none, none, 2⟩

/-- `update(L,R)`. localop.h:281-290 -/
def update0 (_ : Op) (l r : Option (List Ix)) : Op := ⟨none, none, l, r, none, 0⟩

/-- `update(Op1,L,R)`. localop.h:292-299 -/
def update1 (o : Op) (a : List Ix) (l r : Option (List Ix)) : Op := { updateOp1 o a with L := l, R := r }

/-- `update(Op1,Op2,L,R)`. localop.h:301-308 -/
def update2 (o : Op) (a b : List Ix) (l r : Option (List Ix)) : Op := { updateOp2 o a b with L := l, R := r }

/-- `numCenter(val)`. localop.h:102-107 -/
def numCenter (o : Op) (val : Int) : Res Op := if val < 0 ∨ 2 < val then .throw else .ok { o with nc := val }

/-- The loop over the indices of an environment: the dimension of the first with a prime. localop.h:497-518 -/
def primedDim : Option (List Ix) → Nat
  | none => 1
  | some is => ((is.find? fun I => 0 < I.plev).map Ix.dim).getD 1

/-- `dim(findIndex(*Op,"Site,0"))`: two such indices throw, none at all gives the default index, of dimension 1.
localop.h:521-526, indexset.cc:565-578, index.cc:56-63 -/
def siteDim : Option (List Ix) → Res Nat
  | none => .ub
  | some is => match is.filter fun I => I.site && I.plev == 0 with
    | [] => .ok 1
    | [I] => .ok I.dim
    | _ => .throw

/-- The part of `size` within the test for `size_t(-1)`. localop.h:494-527 -/
def computeSize (o : Op) : Res Nat :=
  let s := primedDim o.L * primedDim o.R
  if o.nc = 2 then (siteDim o.op1).bind fun a => (siteDim o.op2).bind fun b => .ok (s * a * b)
  else if o.nc = 1 then (siteDim o.op1).bind fun a => .ok (s * a)
  else .ok s

/-- `size()`: the answer, and the object with the answer kept in it. localop.h:488-530 -/
def getSize (o : Op) : Res (Nat × Op) :=
  if o.L.isNone ∧ o.R.isNone then .throw
  else match o.size with
    | some n => .ok (n, o)
    | none => (computeSize o).bind fun n => .ok (n, { o with size := some n })

theorem primedDim_perm {l l' w : Ix} {is : List Ix} (hp : is.Perm [l, l', w]) (hl : l.plev = 0) (hl' : 0 < l'.plev)
    (hw : w.plev = 0) : primedDim (some is) = l'.dim := by
  have hmem : l' ∈ is := hp.symm.subset (by simp)
  have hu : ∀ I ∈ is, 0 < I.plev → I = l' := by
    intro I hI h0
    have := hp.subset hI
    simp only [List.mem_cons, List.not_mem_nil, or_false] at this
    rcases this with rfl | rfl | rfl
    · omega
    · rfl
    · omega
  simp only [primedDim]
  cases hf : is.find? fun I => decide (0 < I.plev) with
  | none =>
    rw [List.find?_eq_none] at hf
    exact absurd (hf l' hmem) (by simp [hl'])
  | some I =>
    have h1 := List.find?_some hf
    have h2 := List.mem_of_find?_eq_some hf
    rw [hu I h2 (by simpa using h1)]; rfl

theorem siteDim_perm {s : Ix} {is others : List Ix} (hp : is.Perm (s :: others)) (hs : s.site = true) (h0 : s.plev = 0)
    (ho : ∀ I ∈ others, I.site = true → 0 < I.plev) : siteDim (some is) = .ok s.dim := by
  have hf : (s :: others).filter (fun I => I.site && I.plev == 0) = [s] := by
    rw [List.filter_cons_of_pos (by simp [hs, h0]), List.filter_eq_nil_iff.2]
    intro I hI
    simp only [Bool.and_eq_true, beq_iff_eq, not_and]
    intro h1
    have := ho I hI h1
    omega
  have := hp.filter fun I => I.site && I.plev == 0
  rw [hf] at this
  simp only [siteDim, List.perm_singleton.1 this]

/-- An environment on one side of the sites: either there is none, and the state has no link there, or its indices are, in any order, the
link of the state, the same link with a prime, and a link of the operator. -/
def EnvOf (link : Option Ix) (E : Option (List Ix)) : Prop :=
  match link, E with
  | none, none => True
  | some l, some is => ∃ l' w, is.Perm [l, l', w] ∧ l.plev = 0 ∧ 0 < l'.plev ∧ w.plev = 0 ∧ l'.dim = l.dim
  | _, _ => False

/-- A tensor of the operator: its indices are, in any order, the index of the site, that index with a prime, and links. -/
def TensorOf (s : Ix) (is : List Ix) : Prop :=
  ∃ others, is.Perm (s :: others) ∧ s.site = true ∧ s.plev = 0 ∧ ∀ I ∈ others, I.site = true → 0 < I.plev

/-- The dimension of a link that may be missing. -/
def linkDim (l : Option Ix) : Nat := l.elim 1 Ix.dim

theorem primedDim_env {l : Option Ix} {E : Option (List Ix)} (h : EnvOf l E) : primedDim E = linkDim l := by
  cases l with
  | none => cases E with
    | none => rfl
    | some _ => exact h.elim
  | some l => cases E with
    | none => exact h.elim
    | some is =>
      obtain ⟨l', w, hp, h1, h2, h3, h4⟩ := h
      rw [primedDim_perm hp h1 h2 h3, h4]; rfl

/-- C115 (`size`, two sites). After `update`, `size` is the number of elements of the tensors on which the operator acts, whatever the
order of the indices; and that is the number which later calls give. -/
theorem C115_size_two (o : Op) (l r : Option Ix) (s₁ s₂ : Ix) (a b : List Ix) (L R : Option (List Ix))
    (hL : EnvOf l L) (hR : EnvOf r R) (ha : TensorOf s₁ a) (hb : TensorOf s₂ b) (hlr : l.isSome ∨ r.isSome) :
    ∃ o', getSize (update2 o a b L R) = .ok (linkDim l * linkDim r * s₁.dim * s₂.dim, o') ∧
      getSize o' = .ok (linkDim l * linkDim r * s₁.dim * s₂.dim, o') := by
  obtain ⟨oa, a1, a2, a3, a4⟩ := ha
  obtain ⟨ob, b1, b2, b3, b4⟩ := hb
  have hn : ¬(L = none ∧ R = none) := by
    rintro ⟨rfl, rfl⟩
    cases l <;> cases r <;> simp_all [EnvOf]
  have hc : computeSize (update2 o a b L R) = .ok (linkDim l * linkDim r * s₁.dim * s₂.dim) := by
    simp [computeSize, update2, updateOp2, primedDim_env hL, primedDim_env hR, siteDim_perm a1 a2 a3 a4,
      siteDim_perm b1 b2 b3 b4]
  refine ⟨{ update2 o a b L R with size := some (linkDim l * linkDim r * s₁.dim * s₂.dim) }, ?_, ?_⟩
  · simp only [getSize, hc]
    simp [update2, updateOp2, hn]
  · simp [getSize, update2, updateOp2, hn]

/-- C115 (`size`, one site). -/
theorem C115_size_one (o : Op) (l r : Option Ix) (s : Ix) (a : List Ix) (L R : Option (List Ix))
    (hL : EnvOf l L) (hR : EnvOf r R) (ha : TensorOf s a) (hlr : l.isSome ∨ r.isSome) :
    ∃ o', getSize (update1 o a L R) = .ok (linkDim l * linkDim r * s.dim, o') := by
  obtain ⟨oa, a1, a2, a3, a4⟩ := ha
  have hn : ¬(L = none ∧ R = none) := by
    rintro ⟨rfl, rfl⟩
    cases l <;> cases r <;> simp_all [EnvOf]
  have hc : computeSize (update1 o a L R) = .ok (linkDim l * linkDim r * s.dim) := by
    simp [computeSize, update1, updateOp1, primedDim_env hL, primedDim_env hR, siteDim_perm a1 a2 a3 a4]
  refine ⟨{ update1 o a L R with size := some (linkDim l * linkDim r * s.dim) }, ?_⟩
  simp only [getSize, hc]
  simp [update1, updateOp1, hn]

/-- C115 (`size`, the link between two sites). -/
theorem C115_size_zero (o : Op) (l r : Option Ix) (L R : Option (List Ix)) (hL : EnvOf l L) (hR : EnvOf r R)
    (hlr : l.isSome ∨ r.isSome) : ∃ o', getSize (update0 o L R) = .ok (linkDim l * linkDim r, o') := by
  have hn : ¬(L = none ∧ R = none) := by
    rintro ⟨rfl, rfl⟩
    cases l <;> cases r <;> simp_all [EnvOf]
  have hc : computeSize (update0 o L R) = .ok (linkDim l * linkDim r) := by
    simp [computeSize, update0, primedDim_env hL, primedDim_env hR]
  refine ⟨{ update0 o L R with size := some (linkDim l * linkDim r) }, ?_⟩
  simp only [getSize, hc]
  simp [update0, hn]

/-- Links of dimension 3 and 4, sites of dimension 2, links of the operator of dimension 5, in some order. -/
example : getSize (update2 ⟨none, none, none, none, some 7, 1⟩
    [⟨1, 5, 0, false⟩, ⟨10, 2, 1, true⟩, ⟨10, 2, 0, true⟩, ⟨2, 5, 0, false⟩]
    [⟨11, 2, 0, true⟩, ⟨2, 5, 0, false⟩, ⟨3, 5, 0, false⟩, ⟨11, 2, 1, true⟩]
    (some [⟨1, 5, 0, false⟩, ⟨20, 3, 0, false⟩, ⟨20, 3, 1, false⟩])
    (some [⟨21, 4, 1, false⟩, ⟨3, 5, 0, false⟩, ⟨21, 4, 0, false⟩])) =
    .ok (48, { update2 ⟨none, none, none, none, some 7, 1⟩
      [⟨1, 5, 0, false⟩, ⟨10, 2, 1, true⟩, ⟨10, 2, 0, true⟩, ⟨2, 5, 0, false⟩]
      [⟨11, 2, 0, true⟩, ⟨2, 5, 0, false⟩, ⟨3, 5, 0, false⟩, ⟨11, 2, 1, true⟩]
      (some [⟨1, 5, 0, false⟩, ⟨20, 3, 0, false⟩, ⟨20, 3, 1, false⟩])
      (some [⟨21, 4, 1, false⟩, ⟨3, 5, 0, false⟩, ⟨21, 4, 0, false⟩]) with size := some 48 }) := by decide +kernel

/-- What a program may call, `numCenter` left out. -/
inductive Call
  | op1 (a : List Ix)
  | op2 (a b : List Ix)
  | up0 (l r : Option (List Ix))
  | up1 (a : List Ix) (l r : Option (List Ix))
  | up2 (a b : List Ix) (l r : Option (List Ix))
  | size

/-- One call; a call of `size` that throws leaves the object as it was. -/
def run (o : Op) : Call → Op
  | .op1 a => updateOp1 o a
  | .op2 a b => updateOp2 o a b
  | .up0 l r => update0 o l r
  | .up1 a l r => update1 o a l r
  | .up2 a b l r => update2 o a b l r
  | .size => match getSize o with
    | .ok r => r.2
    | _ => o

/-- The number kept is the one that would be calculated now. -/
def Fresh (o : Op) : Prop := o.size = none ∨ ∃ n, o.size = some n ∧ computeSize o = .ok n

theorem fresh_run (o : Op) (c : Call) (h : Fresh o) : Fresh (run o c) := by
  cases c with
  | op1 a => exact .inl rfl
  | op2 a b => exact .inl rfl
  | up0 l r => exact .inl rfl
  | up1 a l r => exact .inl rfl
  | up2 a b l r => exact .inl rfl
  | size =>
    simp only [run, getSize]
    split
    · rename_i r hr
      split at hr
      · simp at hr
      · cases ho : o.size with
        | some n => simp only [ho, Res.ok.injEq] at hr; subst hr; exact h
        | none =>
          simp only [ho, Res.bind_eq_ok] at hr
          obtain ⟨n, hn, he⟩ := hr
          simp only [Res.ok.injEq] at he
          subst he
          exact .inr ⟨n, rfl, hn⟩
    · exact h

/-- C115 (`size`, the kept number). After any calls of `update`, `updateOp` and `size` in any order on a new object, `size` gives what is
calculated from the present tensors. Calls of `numCenter` are left out; with them it is false. -/
theorem C115_cache_partial (nc : Int) (cs : List Call) (n : Nat) (o' : Op)
    (h : getSize (cs.foldl run ⟨none, none, none, none, none, nc⟩) = .ok (n, o')) :
    computeSize (cs.foldl run ⟨none, none, none, none, none, nc⟩) = .ok n := by
  have hf : ∀ (cs : List Call) (o : Op), Fresh o → Fresh (cs.foldl run o) := by
    intro cs
    induction cs with
    | nil => exact fun _ h => h
    | cons c cs ih => exact fun o ho => ih _ (fresh_run o c ho)
  have := hf cs ⟨none, none, none, none, none, nc⟩ (.inl rfl)
  revert h this
  generalize cs.foldl run ⟨none, none, none, none, none, nc⟩ = o
  intro h this
  simp only [getSize] at h
  split at h
  · simp at h
  · cases ho : o.size with
    | some m =>
      simp only [ho, Res.ok.injEq, Prod.mk.injEq] at h
      rcases this with hs | ⟨k, hk, hc⟩
      · simp [ho] at hs
      · rw [ho] at hk; simp only [Option.some.injEq] at hk
        rw [hc, ← hk, h.1]
    | none =>
      simp only [ho, Res.bind_eq_ok] at h
      obtain ⟨m, hm, he⟩ := h
      simp only [Res.ok.injEq, Prod.mk.injEq] at he
      rw [hm, he.1]

/-- One site, then its size, then another environment and the size again. -/
example : (getSize ([.up1 [⟨10, 2, 1, true⟩, ⟨10, 2, 0, true⟩] (some [⟨20, 3, 1, false⟩]) none, .size,
    .up1 [⟨10, 2, 1, true⟩, ⟨10, 2, 0, true⟩] (some [⟨20, 4, 1, false⟩]) none].foldl run
    ⟨none, none, none, none, none, 2⟩)).map Prod.fst = .ok 8 := by decide +kernel

/-- Against C115: `numCenter` does not forget the number kept. Two sites of dimension 2 with a link of dimension 3 have size 12; after
`numCenter(1)` the operator acts on one site and on 6 numbers, but `size` still gives 12. -/
theorem C115_cache_counterexample :
    ∃ o o1 o2 : Op, getSize o = .ok (12, o1) ∧ numCenter o1 1 = .ok o2 ∧ computeSize o2 = .ok 6 ∧ getSize o2 = .ok (12, o2) :=
  let o : Op := ⟨some [⟨10, 2, 1, true⟩, ⟨10, 2, 0, true⟩], some [⟨11, 2, 1, true⟩, ⟨11, 2, 0, true⟩],
    some [⟨20, 3, 1, false⟩, ⟨20, 3, 0, false⟩], none, none, 2⟩
  ⟨o, { o with size := some 12 }, { o with size := some 12, nc := 1 }, by decide +kernel⟩

/-- Against C115: after `update` for one site, `numCenter(2)` is accepted, and `size` follows a null pointer. -/
theorem C115_null_counterexample :
    ∃ o o1 : Op, o = update1 ⟨none, none, none, none, none, 2⟩ [⟨10, 2, 1, true⟩, ⟨10, 2, 0, true⟩] (some [⟨20, 3, 1, false⟩]) none ∧
      numCenter o 2 = .ok o1 ∧ getSize o1 = .ub :=
  ⟨_, _, rfl, rfl, by decide +kernel⟩

/-! ## `diag` -/

noncomputable section

open Finset Verif.DmrgNum

variable {𝕜 : Type*} [RCLike 𝕜]

/-- An element of `delta(i,i',i'')`. -/
def delta3 (a b c : Nat) : 𝕜 := if a = b ∧ b = c then 1 else 0

/-- `Op * delta(s,s',s'')` without primes: left link, site, right link. localop.h:432-438, 444-446 -/
def tieOp (d : Nat) (W : Nat → Nat → Nat → Nat → 𝕜) (w s w' : Nat) : 𝕜 :=
  ∑ t' ∈ range d, ∑ t ∈ range d, W w t' t w' * delta3 t t' s

/-- `L * delta(l,l',l'')` without primes: link of the state, link of the operator. localop.h:451-455, 467-471 -/
def tieEnv (l : Nat) (E : Nat → Nat → Nat → 𝕜) (a w : Nat) : 𝕜 :=
  ∑ t' ∈ range l, ∑ t ∈ range l, E t' w t * delta3 t t' a

/-- `Diag *= noPrime(DiagL)`; without an environment there is no link to sum over, only place 0. localop.h:449-479 -/
def withEnv (k l : Nat) (E : Option (EnvT 𝕜)) (f : Nat → 𝕜) (a : Nat) : 𝕜 :=
  match E with
  | none => f 0
  | some E => ∑ w ∈ range k, f w * tieEnv l E.val a w

/-- `diag()` with two sites, as a function of the places. localop.h:408-486 -/
def diag2 (k₀ k₁ k₂ : Nat) (W₁ W₂ : Nat → Nat → Nat → Nat → 𝕜) (L R : Option (EnvT 𝕜)) (l d₁ d₂ r : Nat) : Res (Pl l d₁ d₂ r → ℝ) :=
  if L.isNone ∧ R.isNone then .throw
  else .ok fun i =>
    let D := fun w₀ w₂ => ∑ w₁ ∈ range k₁, tieOp d₁ W₁ w₀ i.2.1 w₁ * tieOp d₂ W₂ w₁ i.2.2.1 w₂
    let DL := fun w₂ => withEnv k₀ l L (fun w₀ => D w₀ w₂) i.1
    let DR := withEnv k₂ r R DL i.2.2.2
    RCLike.re ((starRingEnd 𝕜) DR)

theorem tieOp_eq (d : Nat) (W : Nat → Nat → Nat → Nat → 𝕜) (w w' : Nat) (s : Fin d) : tieOp d W w s w' = W w s s w' := by
  unfold tieOp
  rw [Finset.sum_eq_single (s : Nat), Finset.sum_eq_single (s : Nat)]
  · simp [delta3]
  · intro t _ ht; simp [delta3, ht]
  · intro h; exact absurd (mem_range.2 s.2) h
  · intro t' _ ht'
    exact Finset.sum_eq_zero fun t _ => by simp [delta3, ht']
  · intro h; exact absurd (mem_range.2 s.2) h

theorem tieEnv_eq (l : Nat) (E : Nat → Nat → Nat → 𝕜) (w : Nat) (a : Fin l) : tieEnv l E a w = E a w a := by
  unfold tieEnv
  rw [Finset.sum_eq_single (a : Nat), Finset.sum_eq_single (a : Nat)]
  · simp [delta3]
  · intro t _ ht; simp [delta3, ht]
  · intro h; exact absurd (mem_range.2 a.2) h
  · intro t' _ ht'
    exact Finset.sum_eq_zero fun t _ => by simp [delta3, ht']
  · intro h; exact absurd (mem_range.2 a.2) h

/-- C115 (`diag`, two sites). With an environment on at least one side, `diag` holds at every place the real part of the diagonal element
of the operator: what `product` gives there for the tensor which is 1 at that place and 0 elsewhere. Where the
environment on the right is missing the operator has no link, which is a link of dimension 1 here. -/
theorem C115_diag (k₀ k₁ k₂ : Nat) (W₁ W₂ : Nat → Nat → Nat → Nat → 𝕜) (L R : Option (EnvT 𝕜)) (l d₁ d₂ r : Nat)
    (h : L.isSome ∨ R.isSome) (hR : R = none → k₂ = 1) :
    ∃ D, diag2 k₀ k₁ k₂ W₁ W₂ L R l d₁ d₂ r = .ok D ∧
      ∀ i : Pl l d₁ d₂ r, D i = RCLike.re (product k₀ k₁ k₂ W₁ W₂ L R (EuclideanSpace.single i (1 : 𝕜)) i) := by
  have hn : ¬(L.isNone ∧ R.isNone) := by
    rcases h with h | h <;> cases L <;> cases R <;> simp_all
  refine ⟨_, if_neg hn, fun i => ?_⟩
  obtain ⟨a, s₁, s₂, c⟩ := i
  simp only [RCLike.conj_re]
  congr 1
  have hx : ∀ (a' : Fin l) (t₁ : Fin d₁) (t₂ : Fin d₂) (c' : Fin r),
      (EuclideanSpace.single (a, s₁, s₂, c) (1 : 𝕜) : Block 𝕜 l d₁ d₂ r) (a', t₁, t₂, c') =
        if a' = a then (if t₁ = s₁ then (if t₂ = s₂ then (if c' = c then 1 else 0) else 0) else 0) else 0 := by
    intro a' t₁ t₂ c'
    simp only [PiLp.single_apply, Prod.mk.injEq]
    by_cases h1 : a' = a <;> by_cases h2 : t₁ = s₁ <;> by_cases h3 : t₂ = s₂ <;> by_cases h4 : c' = c <;> simp [h1, h2, h3, h4]
  cases L with
  | none =>
    cases R with
    | none => simp at h
    | some R =>
      simp only [product, hx, withEnv, tieOp_eq, tieEnv_eq, valOf, Option.elim]
      simp only [if_true, ite_mul, one_mul, zero_mul, sum_ite_eq', sum_ite_irrel, sum_const_zero, mem_univ]
      simp only [Finset.sum_mul]
      rw [Finset.sum_comm]
      exact Finset.sum_congr rfl fun w₁ _ => Finset.sum_congr rfl fun w₂ _ => by ring
  | some L =>
    have e : ∀ w₂, withEnv k₀ l (some L) (fun w₀ => ∑ w₁ ∈ range k₁, tieOp d₁ W₁ w₀ s₁ w₁ * tieOp d₂ W₂ w₁ s₂ w₂) a =
        ∑ w₁ ∈ range k₁, (∑ w₀ ∈ range k₀, L.val a w₀ a * W₁ w₀ s₁ s₁ w₁) * W₂ w₁ s₂ s₂ w₂ := by
      intro w₂
      simp only [withEnv, tieOp_eq, tieEnv_eq, Finset.sum_mul]
      rw [Finset.sum_comm]
      exact Finset.sum_congr rfl fun w₁ _ => Finset.sum_congr rfl fun w₀ _ => by ring
    simp only [e]
    simp only [product, hx, valOf]
    simp only [if_true, ite_mul, one_mul, zero_mul, sum_ite_eq', sum_ite_irrel, sum_const_zero, mem_univ]
    cases R with
    | none =>
      obtain rfl := hR rfl
      simp [withEnv]
    | some R =>
      simp only [withEnv, tieEnv_eq, Option.elim]

/-- The operator `diag(1,2)` on both sites with an environment of value 3 on the left: at the places 1 and 0 of the sites the diagonal
is 6. -/
example : ∃ D, diag2 1 1 1 (fun _ s' s _ => if s' = s then (s : ℝ) + 1 else 0) (fun _ s' s _ => if s' = s then (s : ℝ) + 1 else 0)
    (some ⟨0, fun _ _ _ => 3⟩) none 1 2 2 1 = .ok D ∧ D (0, 1, 0, 0) = 6 := by
  refine ⟨_, if_neg (by simp), ?_⟩
  simp [withEnv, tieOp, tieEnv, delta3, Finset.sum_range_succ]
  norm_num

/-- The places of the tensor of one site. -/
abbrev Pl1 (l d r : Nat) := Fin l × Fin d × Fin r

/-- `LocalOp::product` with one site. localop.h:324-365 -/
def product1 (k₀ k₁ : Nat) (W : Nat → Nat → Nat → Nat → 𝕜) (L R : Option (EnvT 𝕜)) {l d r : Nat} (x : Pl1 l d r → 𝕜) : Pl1 l d r → 𝕜 :=
  match L with
  | none =>
    let g₁ := fun (a : Fin l) (s : Fin d) (c' : Fin r) w₁ => ∑ c : Fin r, x (a, s, c) * valOf R c' w₁ c
    fun i => ∑ w₁ ∈ range k₁, ∑ s : Fin d, g₁ i.1 s i.2.2 w₁ * W 0 i.2.1 s w₁
  | some L =>
    let g₁ := fun (a' : Fin l) w (s : Fin d) (c : Fin r) => ∑ a : Fin l, x (a, s, c) * L.val a' w a
    let g₂ := fun a' (s' : Fin d) w₁ c => ∑ w ∈ range k₀, ∑ s : Fin d, g₁ a' w s c * W w s' s w₁
    fun i => ∑ w₁ ∈ range k₁, ∑ c : Fin r, g₂ i.1 i.2.1 w₁ c * valOf R i.2.2 w₁ c

/-- `diag()` with one site. localop.h:440-485 -/
def diag1 (k₀ k₁ : Nat) (W : Nat → Nat → Nat → Nat → 𝕜) (L R : Option (EnvT 𝕜)) (l d r : Nat) : Res (Pl1 l d r → ℝ) :=
  if L.isNone ∧ R.isNone then .throw
  else .ok fun i =>
    let DL := fun w₁ => withEnv k₀ l L (fun w₀ => tieOp d W w₀ i.2.1 w₁) i.1
    RCLike.re ((starRingEnd 𝕜) (withEnv k₁ r R DL i.2.2))

/-- C115 (`diag`, one site). -/
theorem C115_diag_one (k₀ k₁ : Nat) (W : Nat → Nat → Nat → Nat → 𝕜) (L R : Option (EnvT 𝕜)) (l d r : Nat)
    (h : L.isSome ∨ R.isSome) (hR : R = none → k₁ = 1) :
    ∃ D, diag1 k₀ k₁ W L R l d r = .ok D ∧
      ∀ i : Pl1 l d r, D i = RCLike.re (product1 k₀ k₁ W L R (fun j => if j = i then (1 : 𝕜) else 0) i) := by
  have hn : ¬(L.isNone ∧ R.isNone) := by
    rcases h with h | h <;> cases L <;> cases R <;> simp_all
  refine ⟨_, if_neg hn, fun i => ?_⟩
  obtain ⟨a, s, c⟩ := i
  simp only [RCLike.conj_re]
  congr 1
  have hx : ∀ (a' : Fin l) (t : Fin d) (c' : Fin r), (if (a', t, c') = (a, s, c) then (1 : 𝕜) else 0) =
      if a' = a then (if t = s then (if c' = c then 1 else 0) else 0) else 0 := by
    intro a' t c'
    simp only [Prod.mk.injEq]
    by_cases h1 : a' = a <;> by_cases h2 : t = s <;> by_cases h4 : c' = c <;> simp [h1, h2, h4]
  cases L with
  | none =>
    cases R with
    | none => simp at h
    | some R =>
      simp only [product1, hx, withEnv, tieOp_eq, tieEnv_eq, valOf, Option.elim]
      simp only [if_true, ite_mul, one_mul, zero_mul, sum_ite_eq', sum_ite_irrel, sum_const_zero, mem_univ]
      exact Finset.sum_congr rfl fun w₁ _ => by ring
  | some L =>
    simp only [product1, hx, valOf]
    simp only [if_true, ite_mul, one_mul, zero_mul, sum_ite_eq', sum_ite_irrel, sum_const_zero, mem_univ]
    cases R with
    | none =>
      obtain rfl := hR rfl
      simp only [withEnv, tieOp_eq, tieEnv_eq, Option.elim, range_one, sum_singleton, mul_one]
      exact Finset.sum_congr rfl fun w _ => by ring
    | some R =>
      simp only [withEnv, tieOp_eq, tieEnv_eq, Option.elim]
      refine Finset.sum_congr rfl fun w₁ _ => ?_
      congr 1
      exact Finset.sum_congr rfl fun w _ => by ring

/-- The operator `diag(1,2)` with an environment of value 3 on the left. -/
example : ∃ D, diag1 1 1 (fun _ s' s _ => if s' = s then (s : ℝ) + 1 else 0) (some ⟨0, fun _ _ _ => 3⟩) none 1 2 1 = .ok D ∧
    D (0, 1, 0) = 6 := by
  refine ⟨_, if_neg (by simp), ?_⟩
  simp [withEnv, tieOp, tieEnv, delta3, Finset.sum_range_succ]
  norm_num

end

/-! ### Tensors with quantum numbers -/

/-- The check of the arrows at the start of `Op * delta(s,prime(s),prime(s,2))`. localop.h:433, 437, 445, itensor.cc:955 -/
def tieArrows (is : Verif.Index.IndexSet) (s : Verif.Index.Index) : Res Unit :=
  if Verif.QDense.checkArrows is [s, s.prime 1, s.prime 2] false then .ok () else .throw

/-- Against C115: with quantum numbers `diag` throws for every operator. The index given to `delta` is the one found in the tensor, with the
arrow it has there, and not its opposite. -/
theorem C115_qn_counterexample (is : Verif.Index.IndexSet) (s : Verif.Index.Index) (hs : s ∈ is) (hq : ∀ I ∈ is, 0 < I.nblock) :
    tieArrows is s = .throw := by
  have h2 : ∀ I ∈ [s, s.prime 1, s.prime 2], 0 < Verif.Index.Index.nblock I := by
    intro I hI
    have := hq s hs
    simp only [List.mem_cons, List.not_mem_nil, or_false] at hI
    rcases hI with rfl | rfl | rfl <;> exact this
  unfold tieArrows
  rw [if_neg]
  rw [Verif.QDense.checkArrows_iff hq h2 false]
  intro h
  have := h s hs s (by simp) rfl
  simp at this

/-- An index with one sector, and its prime with the other arrow. -/
example : tieArrows [⟨7, 2, -1, ⟨[], 0, 0⟩, [([], 2)]⟩, ⟨7, 2, 1, ⟨[], 1, 0⟩, [([], 2)]⟩]
    ⟨7, 2, -1, ⟨[], 0, 0⟩, [([], 2)]⟩ = .throw :=
  C115_qn_counterexample _ _ (by simp) (by simp [Verif.Index.Index.nblock])

end Verif.LocalOp
