import Verif.MPS.InnerTwoC105
import Mathlib.Data.Complex.Basic
import Mathlib.Analysis.Complex.Norm

/-! # C105: `errorMPOProd` -/

namespace Verif.MPS

open Verif.Tensor Verif.Index Verif.Index.IndexSet Verif.Net Finset

/-- The value under the square root of `errorMPOProd` before `abs` (mpo.cc:790-793). The four functions give the ids of the
new links of the three inner products. -/
def errorRatio {K R : Type*} [CommRing K] [DecidableEq K] [Field R] (re : K → R) (fuel : Nat) (junk fresh : Int → K) (conj : K →+* K)
    (id1 id2 id3 id4 : Key → Nat) (y A x : List (DTensor K)) : Run R :=
  Run.bind (innerC fuel junk fresh conj id1 y y) fun yy =>
  Run.bind (innerOp fuel junk fresh conj id2 y A x) fun yAx =>
  Run.bind (innerAxBy fuel junk fresh conj id3 id4 A x A x) fun AxAx =>
  some (.ok (1 + (re yy + -2 * re yAx) / re AxAx))

/-- `errorMPOProd(MPS,MPO,MPS)` (mpo.cc:785-796) over the complex numbers with exact arithmetic. -/
noncomputable def errorMPOProd (fuel : Nat) (junk fresh : Int → ℂ) (id1 id2 id3 id4 : Key → Nat) (y A x : List (DTensor ℂ)) : Run ℝ :=
  Run.bind (errorRatio Complex.re fuel junk fresh (starRingEnd ℂ) id1 id2 id3 id4 y A x) fun e => some (.ok (Real.sqrt |e|))

theorem sumVals_add_add {R : Type*} [CommRing R] (F G : List Nat → R) : ∀ ds : List Nat,
    sumVals ds (fun v => F v + G v) = sumVals ds F + sumVals ds G := by
  intro ds
  induction ds generalizing F G with
  | nil => rfl
  | cons d ds ih =>
    simp only [sumVals, ← sum_add_distrib]
    exact sum_congr rfl fun v _ => ih _ _

theorem sumVals_const_mul {R : Type*} [CommRing R] (c : R) (F : List Nat → R) : ∀ ds : List Nat,
    sumVals ds (fun v => c * F v) = c * sumVals ds F := by
  intro ds
  induction ds generalizing F with
  | nil => rfl
  | cons d ds ih =>
    simp only [sumVals, mul_sum]
    exact sum_congr rfl fun v _ => ih _

theorem sumVals_nonneg {F : List Nat → ℝ} (h : ∀ v, 0 ≤ F v) : ∀ ds : List Nat, 0 ≤ sumVals ds F := by
  intro ds
  induction ds generalizing F with
  | nil => exact h _
  | cons d ds ih => exact sum_nonneg fun v _ => ih fun vs => h _

/-- C105: on two or more sites `errorMPOProd(y,A,x)` is the distance of `y` from `A x`, relative to the norm of `A x`, when
that is not zero. -/
theorem C105_error_partial {ext : Key → Nat} {A x y : List (DTensor ℂ)} {s lx t a sy ly : List Key} (hx : IsMPS ext x s lx)
    (hA : IsMPO ext A t s a) (hy : IsMPS ext y sy ly) (hN : 2 ≤ t.length) (hls : t.length = s.length)
    (hnames : (t ++ (s ++ (lx ++ a))).Nodup) (hdim : t.map ext = sy.map ext) (hty : ∀ k ∈ t, k ∉ ly)
    {id1 id2 id3 id4 : Key → Nat} (hf1 : Fresh ext id1 ly (sy ++ ly)) (hf2 : Fresh ext id2 ly (t ++ (s ++ (lx ++ a))))
    (hf3 : Fresh ext id3 a (s ++ (s ++ (t ++ (lx ++ a)))))
    (hf4 : Fresh ext id4 lx (s ++ (s ++ (t ++ (lx ++ (a ++ a.map (simKey id3)))))))
    {d fuel : Nat} (hd : 1 ≤ d) (hext : ∀ k, ext k ≤ d) (hmax : ((d ^ 5 : Nat) : Int) ≤ offMax) (hfuel : d ^ 5 < fuel)
    (junk fresh : Int → ℂ) (Ax : List Nat → ℂ)
    (hAx : Ax = fun w => sumVals (s.map ext) fun v => amp ext A a (assign (assign 0 t w) s v) * amp ext x lx (assign 0 s v))
    (hne : sumVals (t.map ext) (fun w => ‖Ax w‖ ^ 2) ≠ 0) :
    ∃ r : ℝ, errorMPOProd fuel junk fresh id1 id2 id3 id4 y A x = some (.ok r) ∧ 0 ≤ r ∧
      r ^ 2 * sumVals (t.map ext) (fun w => ‖Ax w‖ ^ 2) =
        sumVals (t.map ext) (fun w => ‖amp ext y ly (assign 0 sy w) - Ax w‖ ^ 2) := by
  have h35 : d ^ 3 ≤ d ^ 5 := Nat.pow_le_pow_right hd (by omega)
  have h45 : d ^ 4 ≤ d ^ 5 := Nat.pow_le_pow_right hd (by omega)
  have hny := hy.nodup
  rw [flatten_single] at hny
  have e1 := C56_inner hy hy rfl (fun k hk hk' => (List.nodup_append.1 hny).2.2 k hk k hk' rfl) (starRingEnd ℂ) hf1 hd hext
    (le_trans (by exact_mod_cast h35) hmax) (lt_of_le_of_lt h35 hfuel) junk fresh
  have e2 := C56_op hy hA hx hls hnames hdim hty (starRingEnd ℂ) hf2 hd hext
    (le_trans (by exact_mod_cast h45) hmax) (lt_of_le_of_lt h45 hfuel) junk fresh
  have hn1 : (s ++ (t ++ (lx ++ a))).Nodup := by
    have hp : (s ++ (t ++ (lx ++ a))).Perm (t ++ (s ++ (lx ++ a))) := by
      rw [← List.append_assoc s, ← List.append_assoc t]; exact List.perm_append_comm.append_right _
    rw [hp.nodup_iff]; exact hnames
  have e3 := C105_inner_partial hx hA hA hx hN hls hls (fun k hk hk' => (List.nodup_append.1 hnames).2.2 k hk k (by
      rcases List.mem_append.1 hk' with h | h <;> simp [h]) rfl) hn1
    (fun k hk hk' => (List.nodup_append.1 hn1).2.2 k hk k hk' rfl) (starRingEnd ℂ) hf3 hf4 hd hext hmax hfuel junk fresh
  set Y : List Nat → ℂ := fun w => amp ext y ly (assign 0 sy w) with hY
  have r1 : (sumVals (sy.map ext) fun v => (starRingEnd ℂ) (amp ext y ly (assign 0 sy v)) * amp ext y ly (assign 0 sy v)).re =
      sumVals (t.map ext) fun w => ‖Y w‖ ^ 2 := by
    rw [← hdim]
    refine (map_sumVals Complex.reAddGroupHom _ _).trans (sumVals_congr fun v _ => ?_)
    show ((starRingEnd ℂ) (Y v) * Y v).re = _
    rw [mul_comm, Complex.mul_conj, Complex.ofReal_re, Complex.normSq_eq_norm_sq]
  have r2 : (sumVals (t.map ext) fun w => sumVals (s.map ext) fun v =>
      (starRingEnd ℂ) (amp ext y ly (assign 0 sy w)) * amp ext A a (assign (assign 0 t w) s v) * amp ext x lx (assign 0 s v)).re =
      sumVals (t.map ext) fun w => ((starRingEnd ℂ) (Y w) * Ax w).re := by
    refine (map_sumVals Complex.reAddGroupHom _ _).trans (sumVals_congr fun w _ => ?_)
    show (sumVals (s.map ext) fun v => (starRingEnd ℂ) (Y w) * amp ext A a (assign (assign 0 t w) s v) * amp ext x lx (assign 0 s v)).re = _
    simp only [mul_assoc, hAx]
    rw [sumVals_const_mul]
  have r3 : (sumVals (t.map ext) fun w =>
      (starRingEnd ℂ) (sumVals (s.map ext) fun v => amp ext A a (assign (assign 0 t w) s v) * amp ext x lx (assign 0 s v)) *
      sumVals (s.map ext) fun v => amp ext A a (assign (assign 0 t w) s v) * amp ext x lx (assign 0 s v)).re =
      sumVals (t.map ext) fun w => ‖Ax w‖ ^ 2 := by
    refine (map_sumVals Complex.reAddGroupHom _ _).trans (sumVals_congr fun w _ => ?_)
    rw [hAx]
    show ((starRingEnd ℂ) _ * _).re = _
    rw [mul_comm, Complex.mul_conj, Complex.ofReal_re, Complex.normSq_eq_norm_sq]
  set n := sumVals (t.map ext) (fun w => ‖Ax w‖ ^ 2) with hn
  set yy := sumVals (t.map ext) (fun w => ‖Y w‖ ^ 2) with hyy
  set c := sumVals (t.map ext) (fun w => ((starRingEnd ℂ) (Y w) * Ax w).re) with hc
  have hdist : sumVals (t.map ext) (fun w => ‖Y w - Ax w‖ ^ 2) = n + (yy + -2 * c) := by
    rw [hn, hyy, hc, ← sumVals_const_mul, ← sumVals_add_add, ← sumVals_add_add]
    refine sumVals_congr fun w _ => ?_
    rw [← Complex.normSq_eq_norm_sq, ← Complex.normSq_eq_norm_sq, ← Complex.normSq_eq_norm_sq, Complex.normSq_sub]
    have : (Y w * (starRingEnd ℂ) (Ax w)).re = ((starRingEnd ℂ) (Y w) * Ax w).re := by
      simp only [Complex.mul_re, Complex.conj_re, Complex.conj_im]; ring
    rw [this]; ring
  have hn0 : 0 < n := lt_of_le_of_ne (sumVals_nonneg (fun v => sq_nonneg _) _) (Ne.symm hne)
  have hval : 1 + (yy + -2 * c) / n = sumVals (t.map ext) (fun w => ‖Y w - Ax w‖ ^ 2) / n := by
    rw [hdist]; field_simp
  refine ⟨Real.sqrt |1 + (yy + -2 * c) / n|, ?_, Real.sqrt_nonneg _, ?_⟩
  · rw [errorMPOProd, errorRatio, e1]
    simp only [Run.bind]
    rw [e2]
    simp only [Run.bind]
    rw [e3]
    simp only [Run.bind]
    rw [r1, r2, r3]
  · rw [Real.sq_sqrt (abs_nonneg _), abs_of_nonneg, hval]
    · rw [div_mul_cancel₀ _ hne]
    · rw [hval]
      exact div_nonneg (sumVals_nonneg (fun v => sq_nonneg _) _) hn0.le

end Verif.MPS
