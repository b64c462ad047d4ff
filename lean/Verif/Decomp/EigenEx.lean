import Verif.Decomp.EigenC108
import Mathlib.LinearAlgebra.Eigenspace.Triangularizable
import Mathlib.LinearAlgebra.Matrix.ToLin
import Mathlib.Analysis.Complex.Polynomial.Basic

/-!
# C108: what is asked of LAPACK is possible; an example; and tags for which `eigen` ends in an error
-/

namespace Verif.Eigen

open Verif.Tensor Verif.Index Verif.Index.IndexSet Verif.Net Finset
open Verif.TagSet (TagSet)
open Verif.Factor (kp)

/-- Every matrix of complex numbers has an eigenvector. -/
theorem exists_eig (N : Nat) (hN : 0 < N) (A : Nat → Nat → ℂ) :
    ∃ (μ : ℂ) (v : Nat → ℂ), (∀ i < N, ∑ t ∈ range N, A i t * v t = μ * v i) ∧ ∃ i, i < N ∧ v i ≠ 0 := by
  haveI : Nonempty (Fin N) := ⟨⟨0, hN⟩⟩
  obtain ⟨μ, hμ⟩ := Module.End.exists_eigenvalue (Matrix.toLin' (Matrix.of fun i j : Fin N => A i j))
  obtain ⟨w, hw⟩ := hμ.exists_hasEigenvector
  refine ⟨μ, fun t => if h : t < N then w ⟨t, h⟩ else 0, fun i hi => ?_, ?_⟩
  · have e := congrFun hw.apply_eq_smul ⟨i, hi⟩
    rw [Matrix.toLin'_apply] at e
    simp only [Matrix.mulVec, dotProduct, Matrix.of_apply, Pi.smul_apply, smul_eq_mul] at e
    show _ = μ * (if h : i < N then w ⟨i, h⟩ else 0)
    rw [dif_pos hi, ← e, ← Fin.sum_univ_eq_sum_range (fun t => A i t * if h : t < N then w ⟨t, h⟩ else 0) N]
    exact Finset.sum_congr rfl fun t _ => by rw [dif_pos t.2]
  · obtain ⟨i, hi⟩ := Function.ne_iff.1 hw.2
    exact ⟨i, i.2, by simpa using hi⟩

/-- What is asked of LAPACK can be had. -/
theorem exists_geev : ∃ geev : Geev ℂ, GeevOK geev := by
  choose! μ v h1 h2 using exists_eig
  refine ⟨fun N A => (fun t _ => v N A t, List.replicate N (μ N A)), fun N A => by simp, fun N A i j hi hj => ?_, fun N A j hj => h2 N (by omega) A⟩
  show _ = (List.replicate N (μ N A)).getD j 0 * _
  rw [h1 N (by omega) A i hi]
  simp [List.getD_eq_getElem?_getD, List.getElem?_replicate, hj]

def s : Index := ⟨1, 2, 1, TagSet.default.setPrime 0, []⟩
def t : Index := ⟨2, 3, 1, TagSet.default.setPrime 0, []⟩

/-- `T(s,t',s',t)`. -/
def T : DS ℂ := ⟨[s, t.prime 1, s.prime 1, t], 36, fun a => a⟩

def ext (k : Key) : Nat := if k.1 = 1 then 2 else if k.1 = 2 then 3 else 6

example : ∃ (geev : Geev ℂ) (V : DS ℂ) (D : DG ℂ) (m : Key), eigen 100 (fun _ => 78) geev 5 6 TagSet.default T = some (.ok (V, D)) ∧ (keys V.is).Perm [m, s.key, t.key] ∧
    ∃ P Q : IT ℂ, (IT.dense T).mulEq 100 (fun _ => 77) (fun _ => 78) (.dense V) = some (.ok P) ∧
      (IT.dense ⟨prime 1 V.is .all, V.size, V.mem⟩).mulEq 100 (fun _ => 77) (fun _ => 78) (.diag D) = some (.ok Q) ∧
      (keys P.is).Perm [m, (s.prime 1).key, (t.prime 1).key] ∧ (keys Q.is).Perm [m, (s.prime 1).key, (t.prime 1).key] ∧
      ∀ σ : Key → Nat, (∀ k ∈ [m, (s.prime 1).key, (t.prime 1).key], σ k < ext k) → P.sem.val σ = Q.sem.val σ := by
  obtain ⟨geev, hg⟩ := exists_geev
  have hc : [s, t] = T.is.filter fun i => i.plev = 0 := by rfl
  obtain ⟨V, D, m, h1, -, -, -, h2, -, ⟨P, Q, h3⟩, -⟩ := C108_eigen_partial (ext := ext) (T := T) ⟨⟨by decide, by decide, by decide, by decide⟩, rfl⟩ hg (id1 := 5) (id2 := 6) (by decide) (by decide)
    (tags := TagSet.default) (by decide) hc (by decide) (by decide) (by decide) (by
      intro k h
      rcases h with h | h <;> simp [ext, h, s, t]) (fuel := 100) (by decide) (by decide) (fun _ => 77) (fun _ => 78)
  exact ⟨geev, V, D, m, h1, h2, P, Q, h3⟩

/-- `T(s',s)`, and the tags "1": a prime level for the new index. -/
def T' : DS Int := ⟨[s.prime 1, s], 4, fun a => if a = 0 then 1 else if a = 3 then 2 else 0⟩

/-- LAPACK, for this tensor. -/
def geev' : Geev Int := fun N A => (fun i j => if i = j then 1 else 0, (List.range N).map fun i => A i i)

def outcome {α : Type*} : Run α → Nat
  | none => 0
  | some (.ok _) => 1
  | some .throw => 2
  | some .ub => 3

/-- **C108.** With a prime level among the tags of the new index ("Tags=","1") the combined index gets the prime level, too; `eigDecompImpl` takes the index without its prime level for that of the
eigenvectors, and the last product, with the combiner, ends in an error. Without the prime level `eigen` returns for this tensor. -/
theorem C108_tags_counterexample : eigen 100 (fun _ => 78) geev' 5 6 (TagSet.default.setPrime 1) T' = some .throw ∧
    ∃ V D, eigen 100 (fun _ => 78) geev' 5 6 TagSet.default T' = some (.ok (V, D)) := by
  have h1 : outcome (eigen 100 (fun _ => 78) geev' 5 6 (TagSet.default.setPrime 1) T') = 2 := by decide +kernel
  have h2 : outcome (eigen 100 (fun _ => 78) geev' 5 6 TagSet.default T') = 1 := by decide +kernel
  constructor
  · generalize eigen 100 (fun _ => 78) geev' 5 6 (TagSet.default.setPrime 1) T' = r at h1 ⊢
    rcases r with _ | _ | _ | _ <;> simp [outcome] at h1 ⊢
  · generalize eigen 100 (fun _ => 78) geev' 5 6 TagSet.default T' = r at h2 ⊢
    rcases r with _ | ⟨V, D⟩ | _ | _ <;> simp [outcome] at h2 ⊢

end Verif.Eigen
