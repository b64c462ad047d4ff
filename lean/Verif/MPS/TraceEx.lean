import Verif.MPS.TraceC102

/-! # Examples for the trace -/

namespace Verif.MPS

open Verif.Tensor Verif.Index Verif.Index.IndexSet Verif.Net

theorem C102_rising : IsMPO (fun _ => 2) [ten [mk 1 2 1, mk 1 2] [0, 1, 0, 0]] [(mk 1 2 1).key] [(mk 1 2).key] [] := by
  refine ⟨fun k => ?_, by decide, ?_, ?_⟩
  · simp only [ten, keys, List.map_cons, List.map_nil, reduceCtorEq, or_false]
  · intro T hT
    simp only [List.mem_cons, List.not_mem_nil, or_false] at hT
    subst hT
    exact ⟨by decide, by decide, by decide, by decide⟩
  · intro T hT
    simp only [List.mem_cons, List.not_mem_nil, or_false] at hT
    subst hT
    intro i hi
    simp only [ten, List.mem_cons, List.not_mem_nil, or_false] at hi
    rcases hi with rfl | rfl <;> exact ⟨by decide, by decide, by decide, by decide, by decide⟩

theorem C102_rising2 : IsMPO (fun _ => 2) [ten [mk 1 2, mk 1 2 2] [0, 1, 0, 0]] [(mk 1 2).key] [(mk 1 2 2).key] [] := by
  refine ⟨fun k => ?_, by decide, ?_, ?_⟩
  · simp only [ten, keys, List.map_cons, List.map_nil, reduceCtorEq, or_false]
  · intro T hT
    simp only [List.mem_cons, List.not_mem_nil, or_false] at hT
    subst hT
    exact ⟨by decide, by decide, by decide, by decide⟩
  · intro T hT
    simp only [List.mem_cons, List.not_mem_nil, or_false] at hT
    subst hT
    intro i hi
    simp only [ten, List.mem_cons, List.not_mem_nil, or_false] at hi
    rcases hi with rfl | rfl <;> exact ⟨by decide, by decide, by decide, by decide, by decide⟩

/-- **C102.** Both operators with the same two site indices (as two operators on the same sites are made): the result is
that of `A` with the transpose of `B`. For the rising operator twice it is 1, and the trace of the product, computed with the indices
of the second operator raised, is 0. -/
theorem C102_same_sites_counterexample :
    traceAB 100 (fun _ => 77) (fun _ => 78) exId [ten [mk 1 2 1, mk 1 2] [0, 1, 0, 0]] [ten [mk 1 2 1, mk 1 2] [0, 1, 0, 0]] =
      some (.ok (1 : Int)) ∧
    traceAB 100 (fun _ => 77) (fun _ => 78) exId [ten [mk 1 2 1, mk 1 2] [0, 1, 0, 0]] [ten [mk 1 2, mk 1 2 2] [0, 1, 0, 0]] =
      some (.ok (0 : Int)) := by
  decide +kernel

/-- The hypotheses of `C102_trace_product_partial` hold of the second pair. -/
example : traceAB 100 (fun _ => 77) (fun _ => 78) exId [ten [mk 1 2 1, mk 1 2] [0, 1, 0, 0]] [ten [mk 1 2, mk 1 2 2] [0, 1, 0, 0]] =
    some (.ok (sumVals [2] fun v => sumVals [2] fun w =>
      amp (fun _ => 2) [ten [mk 1 2 1, mk 1 2] [0, 1, 0, 0]] [] (assign (assign 0 [(mk 1 2 1).key] v) [(mk 1 2).key] w) *
      amp (fun _ => 2) [ten [mk 1 2, mk 1 2 2] [0, 1, 0, 0]] [] (assign (assign 0 [(mk 1 2 2).key] v) [(mk 1 2).key] w) : Int)) :=
  C102_trace_product_partial (d := 2) C102_rising C102_rising2 rfl rfl (by decide) (by decide)
    ⟨by decide, by decide, by decide, fun _ _ => rfl⟩ (by decide) (fun _ => le_refl 2) (by decide) (by decide) _ _

/-- Two sites with a link: the trace is 6. -/
example : traceC 100 (fun _ => 77) (fun _ => 78) exOp = some (.ok (sumVals [2, 2] fun v =>
    amp (fun _ => 2) exOp [K4] (assign (assign 0 [K1', K2'] v) [K1, K2] v))) :=
  C102_trace (d := 2) exOp_mpo rfl rfl (by decide) (fun _ => le_refl 2) (by decide) (by decide) _ _

example : traceC 100 (fun _ => 77) (fun _ => 78) exOp = some (.ok 6) := by decide +kernel

/-- Two sites with links, the second operator on the indices of the first and others: the value is that of the sum. -/
example : traceAB 100 (fun _ => 77) (fun _ => 78) exId exOp
      [ten [mk 1 2, mk 1 2 2, mk 4 2] [1, 2, 0, 1, 3, 0, 1, 1], ten [mk 4 2, mk 2 2, mk 2 2 2] [1, 0, 1, 2, 2, 1, 0, 1]] =
    some (.ok (sumVals [2, 2] fun v => sumVals [2, 2] fun w => amp (fun _ => 2) exOp [K4] (assign (assign 0 [K1', K2'] v) [K1, K2] w) *
      amp (fun _ => 2) [ten [mk 1 2, mk 1 2 2, mk 4 2] [1, 2, 0, 1, 3, 0, 1, 1], ten [mk 4 2, mk 2 2, mk 2 2 2] [1, 0, 1, 2, 2, 1, 0, 1]]
        [K4] (assign (assign 0 [(mk 1 2 2).key, (mk 2 2 2).key] v) [K1, K2] w))) := by
  decide +kernel

end Verif.MPS
