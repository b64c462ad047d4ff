import Verif.MPS.InnerOp

/-! # `inner(MPO,MPS,MPO,MPS)`, and concrete networks -/

namespace Verif.MPS

open Verif.Tensor Verif.Index Verif.Index.IndexSet Verif.Net Finset

section
variable {K : Type*} [CommRing K] [DecidableEq K]

/-- `MPO::replaceSiteInds` (mpo.cc:250-261) with `hasSiteInds` (mpo.cc:153-163). -/
def replaceSiteIndsMPO (A : List (DTensor K)) (old new : IndexSet) : Res (List (DTensor K)) :=
  if new.length ≠ A.length then .throw
  else if (A.zip new).all fun q => hasIndex q.1.is q.2 then .ok A
  else replaceSites A old new

/-- The sites in the order in which `inner(MPO,MPS,MPO,MPS)` and `inner(MPS,MPO,MPO,MPS)` multiply (mpo.cc:683-691,
749-756): the first, those from 2 to `N-1`, and the last. -/
def firstMiddleLast {T : Type*} : List T → List T
  | [] => []
  | c :: cs => c :: (cs.dropLast ++ [(c :: cs).getLast (by simp)])

/-- `inner(MPO,MPS,MPO,MPS)` (mpo.cc:664-695). The tensor train `Ap` with matched site indices is computed, and not used. -/
def innerAxBy (fuel : Nat) (junk fresh : Int → K) (conj : K →+* K) (newidA newidx : Key → Nat) (A x B y : List (DTensor K)) :
    Run K :=
  if x.length ≠ y.length ∨ x.length ≠ A.length ∨ y.length ≠ B.length then some .throw
  else match (siteIndsFrom [] A (x.map (·.is))).bind fun sA => (siteIndsFrom [] B (y.map (·.is))).bind fun sB =>
      (replaceSiteIndsMPO A sA sB).bind fun _Ap => (freshLinks newidA (A.map (dagD conj))).bind fun Adag =>
      (freshLinks newidx (x.map (dagD conj))).bind fun xdag => .ok (Adag, xdag) with
    | .ok (Adag, xdag) => sandwich fuel junk fresh (firstMiddleLast ((y.zip (B.zip (Adag.zip xdag))).map fun q =>
        [q.1, q.2.1, q.2.2.1, q.2.2.2]))
    | .throw => some .throw
    | .ub => some .ub

end

/-! ## A state, an operator -/

/-- An index without quantum numbers. -/
def mk (id dim : Nat) (plev : Nat := 0) : Index := ⟨id, dim, 1, { Verif.TagSet.TagSet.default with plev := plev }, []⟩

/-- A tensor with the elements of a list. -/
def ten (is : IndexSet) (v : List Int) : DTensor Int := ⟨is, fun a => if a < 0 then 0 else v.getD a.toNat 0⟩

/-- Sites 1, 2; link 3. -/
def ex1 : List (DTensor Int) := [ten [mk 1 2, mk 3 2] [1, 2, 3, 4], ten [mk 3 2, mk 2 2] [5, 6, 7, 9]]

/-- Sites 1, 2; the same link as `ex1`, the indices of the second tensor in the other order. -/
def ex2 : List (DTensor Int) := [ten [mk 1 2, mk 3 2] [2, 0, 1, 1], ten [mk 2 2, mk 3 2] [1, 3, 0, 2]]

/-- Sites 1', 2' and 1, 2; link 4. -/
def exOp : List (DTensor Int) := [ten [mk 1 2 1, mk 1 2, mk 4 2] [1, 2, 0, 1, 3, 0, 1, 1],
  ten [mk 4 2, mk 2 2, mk 2 2 1] [1, 0, 1, 2, 2, 1, 0, 1]]

def K1 : Key := (mk 1 2).key
def K2 : Key := (mk 2 2).key
def K3 : Key := (mk 3 2).key
def K4 : Key := (mk 4 2).key
def K1' : Key := (mk 1 2 1).key
def K2' : Key := (mk 2 2 1).key

/-- The ids of the new links. -/
def exId (k : Key) : Nat := k.1 + 100

example : innerC 100 (fun _ => 77) (fun _ => 78) (RingHom.id Int) exId ex1 ex2 = some (.ok
    (sumVals [2, 2] fun v => amp (fun _ => 2) ex1 [K3] (assign 0 [K1, K2] v) * amp (fun _ => 2) ex2 [K3] (assign 0 [K1, K2] v))) := by
  decide +kernel

example : innerOp 100 (fun _ => 77) (fun _ => 78) (RingHom.id Int) exId ex1 exOp ex2 = some (.ok
    (sumVals [2, 2] fun w => sumVals [2, 2] fun v => amp (fun _ => 2) ex1 [K3] (assign 0 [K1, K2] w) *
      amp (fun _ => 2) exOp [K4] (assign (assign 0 [K1', K2'] w) [K1, K2] v) *
      amp (fun _ => 2) ex2 [K3] (assign 0 [K1, K2] v))) := by
  decide +kernel

theorem ex1_mps : IsMPS (fun _ => 2) ex1 [K1, K2] [K3] := by
  refine ⟨⟨fun k => ?_, fun k => ?_⟩, by decide, ?_, ?_⟩
  · simp only [ten, keys, List.map_cons, List.map_nil, List.mem_cons, List.not_mem_nil, or_false, reduceCtorEq, false_or, K1, K3]
  · simp only [ten, keys, List.map_cons, List.map_nil, List.mem_cons, List.not_mem_nil, or_false, Option.some.injEq, K2, K3]
    rw [or_comm, eq_comm (a := k) (b := (mk 3 2).key)]
  · intro T hT
    simp only [ex1, List.mem_cons, List.not_mem_nil, or_false] at hT
    rcases hT with rfl | rfl <;> exact ⟨by decide, by decide, by decide, by decide⟩
  · intro T hT
    simp only [ex1, List.mem_cons, List.not_mem_nil, or_false] at hT
    rcases hT with rfl | rfl <;> intro i hi <;> simp only [ten, List.mem_cons, List.not_mem_nil, or_false] at hi <;>
      rcases hi with rfl | rfl <;> exact ⟨by decide, by decide, by decide, by decide, by decide⟩

theorem ex2_mps : IsMPS (fun _ => 2) ex2 [K1, K2] [K3] := by
  refine ⟨⟨fun k => ?_, fun k => ?_⟩, by decide, ?_, ?_⟩
  · simp only [ten, keys, List.map_cons, List.map_nil, List.mem_cons, List.not_mem_nil, or_false, reduceCtorEq, false_or, K1, K3]
  · simp only [ten, keys, List.map_cons, List.map_nil, List.mem_cons, List.not_mem_nil, or_false, Option.some.injEq, K2, K3]
    rw [eq_comm (a := k) (b := (mk 3 2).key)]
  · intro T hT
    simp only [ex2, List.mem_cons, List.not_mem_nil, or_false] at hT
    rcases hT with rfl | rfl <;> exact ⟨by decide, by decide, by decide, by decide⟩
  · intro T hT
    simp only [ex2, List.mem_cons, List.not_mem_nil, or_false] at hT
    rcases hT with rfl | rfl <;> intro i hi <;> simp only [ten, List.mem_cons, List.not_mem_nil, or_false] at hi <;>
      rcases hi with rfl | rfl <;> exact ⟨by decide, by decide, by decide, by decide, by decide⟩

theorem exOp_mpo : IsMPO (fun _ => 2) exOp [K1', K2'] [K1, K2] [K4] := by
  refine ⟨⟨fun k => ?_, fun k => ?_⟩, by decide, ?_, ?_⟩
  · simp only [ten, keys, List.map_cons, List.map_nil, List.mem_cons, List.not_mem_nil, or_false, reduceCtorEq, false_or, K1', K1, K4]
    rw [or_assoc]
  · simp only [ten, keys, List.map_cons, List.map_nil, List.mem_cons, List.not_mem_nil, or_false, Option.some.injEq, K2, K4, K2']
    rw [eq_comm (a := k) (b := (mk 4 2).key)]
    generalize ((mk 4 2).key = k) = a
    generalize (k = (mk 2 2).key) = b
    generalize (k = (mk 2 2 1).key) = c
    tauto
  · intro T hT
    simp only [exOp, List.mem_cons, List.not_mem_nil, or_false] at hT
    rcases hT with rfl | rfl <;> exact ⟨by decide, by decide, by decide, by decide⟩
  · intro T hT
    simp only [exOp, List.mem_cons, List.not_mem_nil, or_false] at hT
    rcases hT with rfl | rfl <;> intro i hi <;> simp only [ten, List.mem_cons, List.not_mem_nil, or_false] at hi <;>
      rcases hi with rfl | rfl | rfl <;> exact ⟨by decide, by decide, by decide, by decide, by decide⟩

/-- The hypotheses of `C56_inner` hold of two states on the same sites, with the same link. -/
example : innerC 100 (fun _ => 77) (fun _ => 78) (RingHom.id Int) exId ex1 ex2 = some (.ok (sumVals [2, 2] fun v =>
    amp (fun _ => 2) ex1 [K3] (assign 0 [K1, K2] v) * amp (fun _ => 2) ex2 [K3] (assign 0 [K1, K2] v))) :=
  C56_inner (d := 2) ex1_mps ex2_mps rfl (by decide) (RingHom.id Int)
    ⟨by decide, by decide, by decide, fun _ _ => rfl⟩ (by decide) (fun _ => le_refl 2) (by decide) (by decide) _ _

/-- The hypotheses of `C56_op` hold of the operator between them. -/
example : innerOp 100 (fun _ => 77) (fun _ => 78) (RingHom.id Int) exId ex1 exOp ex2 = some (.ok
    (sumVals [2, 2] fun w => sumVals [2, 2] fun v => amp (fun _ => 2) ex1 [K3] (assign 0 [K1, K2] w) *
      amp (fun _ => 2) exOp [K4] (assign (assign 0 [K1', K2'] w) [K1, K2] v) *
      amp (fun _ => 2) ex2 [K3] (assign 0 [K1, K2] v))) :=
  C56_op (d := 2) ex1_mps exOp_mpo ex2_mps rfl (by decide) rfl (by decide) (RingHom.id Int)
    ⟨by decide, by decide, by decide, fun _ _ => rfl⟩ (by decide) (fun _ => le_refl 2) (by decide) (by decide) _ _

/-- **`inner(A,x,B,y)` is not `<Ax|By>` on a single site**: with `A = B = 2` and `x = y = 1` on a site of dimension one it
gives 16, the square of `<Ax|By> = 4`. The tensors of the site are multiplied in as the first and again as the last. -/
theorem C56_AxBy_counterexample :
    innerAxBy 100 (fun _ => 77) (fun _ => 78) (RingHom.id Int) exId exId [ten [mk 1 1 1, mk 1 1] [2]] [ten [mk 1 1] [1]]
      [ten [mk 1 1 1, mk 1 1] [2]] [ten [mk 1 1] [1]] = some (.ok 16) ∧
    sandwich 100 (fun _ => 77) (fun _ => 78) [[ten [mk 1 1] [1], ten [mk 1 1 1, mk 1 1] [2], ten [mk 1 1 1, mk 1 1] [2],
      ten [mk 1 1] [1]]] = some (.ok 4) := by
  decide +kernel

/-- **`inner(A,x,B,y)` does not match the site indices**: when the output sites of `A` are 5, 6 and those of `B` are 1', 2' it
reports an error, although `replaceSiteInds` with the arguments it is called with there makes an operator for which
the value is computed. -/
theorem C56_match_counterexample : ∃ A Ap : List (DTensor Int), (∃ sA sB, siteIndsFrom [] A (ex1.map (·.is)) = .ok sA ∧
      siteIndsFrom [] exOp (ex2.map (·.is)) = .ok sB ∧
      replaceSiteIndsMPO A sA sB = .ok Ap) ∧
    innerAxBy 1000 (fun _ => 77) (fun _ => 78) (RingHom.id Int) exId (fun k => k.1 + 200) A ex1 exOp ex2 = some .throw ∧
    ∃ z, innerAxBy 1000 (fun _ => 77) (fun _ => 78) (RingHom.id Int) exId (fun k => k.1 + 200) Ap ex1 exOp ex2 = some (.ok z) := by
  refine ⟨[ten [mk 5 2, mk 1 2, mk 4 2] [1, 2, 0, 1, 3, 0, 1, 1], ten [mk 4 2, mk 2 2, mk 6 2] [1, 0, 1, 2, 2, 1, 0, 1]], exOp,
    ⟨[mk 5 2, mk 6 2], [mk 1 2 1, mk 2 2 1], by decide +kernel, by decide +kernel, rfl⟩, by decide +kernel, ?_⟩
  exact ⟨_, rfl⟩

/-- Three tensors multiplied in two orders, `(a*b)*c` and `a*(c*b)`: the same element for each value of the open index. -/
example : (∀ n ∈ [0, 1], ((PTree.node (.node (.leaf (ten [mk 1 2, mk 3 2] [1, 2, 3, 4])) (.leaf (ten [mk 3 2, mk 2 2] [5, 6, 7, 9])))
      (.leaf (ten [mk 2 2] [1, 3]))).evalD 100 (fun _ => 77) (fun _ => 78)).map (fun r => r.map fun T => T.store n) =
    ((PTree.node (.leaf (ten [mk 1 2, mk 3 2] [1, 2, 3, 4])) (.node (.leaf (ten [mk 2 2] [1, 3]))
      (.leaf (ten [mk 3 2, mk 2 2] [5, 6, 7, 9])))).evalD 100 (fun _ => 77) (fun _ => 78)).map (fun r => r.map fun T => T.store n)) ∧
    ((PTree.node (.node (.leaf (ten [mk 1 2, mk 3 2] [1, 2, 3, 4])) (.leaf (ten [mk 3 2, mk 2 2] [5, 6, 7, 9])))
      (.leaf (ten [mk 2 2] [1, 3]))).evalD 100 (fun _ => 77) (fun _ => 78)).map (fun r => r.map fun T => T.store 0) = some (.ok 125) := by
  decide +kernel

/-- The hypotheses of `C60_product`. -/
example : (ten [mk 1 2, mk 3 2] [1, 2, 3, 4]).OK (fun _ => 2) ∧ (ten [mk 3 2, mk 2 2] [5, 6, 7, 9]).OK (fun _ => 2) :=
  ⟨⟨by decide, by decide, by decide, by decide⟩, ⟨by decide, by decide, by decide, by decide⟩⟩

end Verif.MPS
