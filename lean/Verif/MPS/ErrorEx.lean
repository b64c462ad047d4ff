import Verif.MPS.ErrorC105

/-! # C105: concrete cases -/

namespace Verif.MPS

open Verif.Tensor Verif.Index Verif.Index.IndexSet Verif.Net Finset

/-- The hypotheses of `C105_inner_partial` hold of two states on the same sites and one operator on both sides. -/
example : innerAxBy 100 (fun _ => 77) (fun _ => 78) (RingHom.id Int) exId exId exOp ex1 exOp ex2 = some (.ok
    (sumVals [2, 2] fun w =>
      (sumVals [2, 2] fun v => amp (fun _ => 2) exOp [K4] (assign (assign 0 [K1', K2'] w) [K1, K2] v) *
        amp (fun _ => 2) ex1 [K3] (assign 0 [K1, K2] v)) *
      sumVals [2, 2] fun v => amp (fun _ => 2) exOp [K4] (assign (assign 0 [K1', K2'] w) [K1, K2] v) *
        amp (fun _ => 2) ex2 [K3] (assign 0 [K1, K2] v))) :=
  C105_inner_partial (d := 2) ex1_mps exOp_mpo exOp_mpo ex2_mps (by decide) rfl rfl (by decide) (by decide) (by decide) (RingHom.id Int)
    ⟨by decide, by decide, by decide, fun _ _ => rfl⟩ ⟨by decide, by decide, by decide, fun _ _ => rfl⟩ (by decide) (fun _ => le_refl 2)
    (by decide) (by decide) _ _

/-- It is not zero. -/
example : innerAxBy 100 (fun _ => 77) (fun _ => 78) (RingHom.id Int) exId exId exOp ex1 exOp ex2 ≠ some (.ok 0) := by decide +kernel

/-- Integers as complex numbers. -/
noncomputable def castC (T : DTensor Int) : DTensor ℂ := ⟨T.is, fun n => ((T.store n : Int) : ℂ)⟩

theorem castC_chain {ext : Key → Nat} {A : List (DTensor Int)} {S : List (List Key)} {l : List Key} (h : IsChain ext A S l) :
    IsChain ext (A.map castC) S l := by
  refine ⟨?_, h.nodup, ?_, ?_⟩
  · rw [List.map_map]; exact h.shape
  · intro T hT
    obtain ⟨U, hU, rfl⟩ := List.mem_map.1 hT
    have := h.ok U hU
    exact ⟨this.1, this.2, this.3, this.4⟩
  · intro T hT
    obtain ⟨U, hU, rfl⟩ := List.mem_map.1 hT
    exact h.plain U hU

theorem cast_sumOver (ext : Key → Nat) (F : (Key → Nat) → Int) : ∀ (l : List Key) (σ : Key → Nat),
    ((sumOver ext l F σ : Int) : ℂ) = sumOver ext l (fun τ => ((F τ : Int) : ℂ)) σ := by
  intro l
  induction l with
  | nil => intro σ; rfl
  | cons k l ih =>
    intro σ
    simp only [sumOver, Int.cast_sum, ih]

theorem castC_amp (ext : Key → Nat) (A : List (DTensor Int)) (l : List Key) (σ : Key → Nat) :
    amp ext (A.map castC) l σ = ((amp ext A l σ : Int) : ℂ) := by
  unfold amp
  rw [cast_sumOver]
  congr 1
  funext τ
  refine Eq.trans ?_ (map_list_prod (Int.castRingHom ℂ) _).symm
  rw [List.map_map, List.map_map]
  rfl

/-- The hypotheses of `C105_error_partial` hold of a state, an operator and an approximation. -/
example : ∃ r : ℝ, errorMPOProd 100 (fun _ => 77) (fun _ => 78) exId exId exId exId (ex2.map castC) (exOp.map castC) (ex1.map castC) =
    some (.ok r) ∧ 0 ≤ r ∧
    r ^ 2 * sumVals [2, 2] (fun w => ‖sumVals [2, 2] fun v => amp (fun _ => 2) (exOp.map castC) [K4] (assign (assign 0 [K1', K2'] w) [K1, K2] v) *
      amp (fun _ => 2) (ex1.map castC) [K3] (assign 0 [K1, K2] v)‖ ^ 2) =
    sumVals [2, 2] (fun w => ‖amp (fun _ => 2) (ex2.map castC) [K3] (assign 0 [K1, K2] w) -
      sumVals [2, 2] fun v => amp (fun _ => 2) (exOp.map castC) [K4] (assign (assign 0 [K1', K2'] w) [K1, K2] v) *
      amp (fun _ => 2) (ex1.map castC) [K3] (assign 0 [K1, K2] v)‖ ^ 2) :=
  C105_error_partial (d := 2) (ext := fun _ => 2) (t := [K1', K2']) (sy := [K1, K2]) (castC_chain ex1_mps) (castC_chain exOp_mpo)
    (castC_chain ex2_mps) (by decide) rfl (by decide) rfl (by decide)
    ⟨by decide, by decide, by decide, fun _ _ => rfl⟩ ⟨by decide, by decide, by decide, fun _ _ => rfl⟩
    ⟨by decide, by decide, by decide, fun _ _ => rfl⟩ ⟨by decide, by decide, by decide, fun _ _ => rfl⟩ (by decide) (fun _ => le_refl 2)
    (by decide) (by decide) _ _ _ rfl (by
      have h1 : ∀ w : List Nat, (sumVals [2, 2] fun v => amp (fun _ => 2) (exOp.map castC) [K4] (assign (assign 0 [K1', K2'] w) [K1, K2] v) *
          amp (fun _ => 2) (ex1.map castC) [K3] (assign 0 [K1, K2] v)) =
          ((sumVals [2, 2] fun v => amp (fun _ => 2) exOp [K4] (assign (assign 0 [K1', K2'] w) [K1, K2] v) *
          amp (fun _ => 2) ex1 [K3] (assign 0 [K1, K2] v) : Int) : ℂ) := by
        intro w
        refine Eq.trans (sumVals_congr fun v _ => ?_) (map_sumVals (Int.castAddHom ℂ) _ _).symm
        rw [castC_amp, castC_amp]
        exact (Int.cast_mul _ _).symm
      have h2 : (sumVals [2, 2] fun w => ‖(sumVals [2, 2] fun v => amp (fun _ => 2) (exOp.map castC) [K4] (assign (assign 0 [K1', K2'] w) [K1, K2] v) *
          amp (fun _ => 2) (ex1.map castC) [K3] (assign 0 [K1, K2] v))‖ ^ 2) = ((sumVals [2, 2] fun w => (sumVals [2, 2] fun v =>
            amp (fun _ => 2) exOp [K4] (assign (assign 0 [K1', K2'] w) [K1, K2] v) * amp (fun _ => 2) ex1 [K3] (assign 0 [K1, K2] v)) ^ 2 : Int) : ℝ) := by
        refine Eq.trans (sumVals_congr fun w _ => ?_) (map_sumVals (Int.castAddHom ℝ) _ _).symm
        rw [h1 w, ← Complex.normSq_eq_norm_sq, Complex.normSq_intCast]
        simp [sq]
      refine fun h => ?_
      have h3 := h2.symm.trans h
      have h4 : (sumVals [2, 2] fun w => (sumVals [2, 2] fun v =>
            amp (fun _ => 2) exOp [K4] (assign (assign 0 [K1', K2'] w) [K1, K2] v) * amp (fun _ => 2) ex1 [K3] (assign 0 [K1, K2] v)) ^ 2 : Int) ≠ 0 := by
        decide +kernel
      exact h4 (by exact_mod_cast h3))

/-- A tensor with rational elements. -/
def tenQ (is : IndexSet) (v : List Rat) : DTensor Rat := ⟨is, fun a => if a < 0 then 0 else v.getD a.toNat 0⟩

/-- **`errorMPOProd` is wrong on a single site**: with `A = 2`, `x = 1` and `y = 2` on a site of dimension one `y` is exactly `A x`, and
the number under the square root is 3/4. `inner(A,x,A,x)` gives the square of the norm squared there
(`C56_AxBy_counterexample`). -/
theorem C105_error_counterexample :
    errorRatio (id : Rat → Rat) 100 (fun _ => 77) (fun _ => 78) (RingHom.id Rat) exId exId exId exId
      [tenQ [mk 1 1] [2]] [tenQ [mk 1 1 1, mk 1 1] [2]] [tenQ [mk 1 1] [1]] = some (.ok (3 / 4)) := by
  decide +kernel

end Verif.MPS
