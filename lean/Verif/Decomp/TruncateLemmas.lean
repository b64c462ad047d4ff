import Verif.Decomp.Truncate
import Mathlib.Data.List.Sort
import Mathlib.Algebra.Order.BigOperators.Group.List

namespace Verif.Decomp

variable {K : Type*} [Field K] [LinearOrder K] [IsStrictOrderedRing K]

/-- Non-increasing. -/
def Desc (P : List K) : Prop := P.Pairwise (· ≥ ·)

omit [IsStrictOrderedRing K] in
theorem zeroFront_eq : ∀ (l : List K), l.Pairwise (· ≤ ·) → zeroFront l = l.map (max · 0) := by
  intro l
  induction l with
  | nil => intro _; rfl
  | cons x l ih =>
    intro h
    rw [List.pairwise_cons] at h
    rw [zeroFront]
    split_ifs with hx
    · have : ∀ y ∈ x :: l, max y 0 = y := by
        intro y hy
        rcases List.mem_cons.1 hy with rfl | hy
        · exact max_eq_left hx
        · exact max_eq_left (le_trans hx (h.1 y hy))
      conv_lhs => rw [← List.map_id (x :: l)]
      exact (List.map_congr_left this).symm
    · rw [List.map_cons, ih h.2, max_eq_right (not_le.1 hx).le]

omit [IsStrictOrderedRing K] in
theorem zeroNeg_eq {l : List K} (h : Desc l) : zeroNeg l = l.map (max · 0) := by
  unfold zeroNeg
  rw [zeroFront_eq _ (List.pairwise_reverse.2 h), List.map_reverse, List.reverse_reverse]

/-- Weights: negative values count as zero. -/
def weights (P : List K) : List K := P.map (max · 0)

theorem norm_eq {P : List K} {p : K} (hp : 0 < p) (h : Desc P) :
    zeroNeg (P.map (· / p)) = (weights P).map (· / p) := by
  have hd : Desc (P.map (· / p)) := by
    unfold Desc
    rw [List.pairwise_map]
    exact h.imp fun hab => div_le_div_of_nonneg_right hab hp.le
  rw [zeroNeg_eq hd, weights, List.map_map, List.map_map]
  apply List.map_congr_left
  intro x _
  simp only [Function.comp]
  rcases le_total 0 x with hx | hx
  · rw [max_eq_left hx, max_eq_left (div_nonneg hx hp.le)]
  · rw [max_eq_right hx, max_eq_right (div_nonpos_of_nonpos_of_nonneg hx hp.le), zero_div]

omit [LinearOrder K] [IsStrictOrderedRing K] in
theorem sum_take_succ (Q : List K) {k : Nat} (hk : k < Q.length) :
    (Q.take (k + 1)).sum = (Q.take k).sum + Q[k] := by
  rw [List.take_succ_eq_append_getElem hk, List.sum_append, List.sum_singleton]

omit [Field K] [LinearOrder K] [IsStrictOrderedRing K] in
theorem rd_ok {Q : List K} {k : Nat} (hk : k < Q.length) : rd Q k = .ok Q[k] := by
  rw [rd, List.getElem?_eq_getElem hk]

omit [IsStrictOrderedRing K] in
theorem maxLoop_spec (Q : List K) {M : Int} (hM : 0 ≤ M) : ∀ (k : Nat) (e : K), k ≤ Q.length →
    ∃ e', maxLoop Q M k e = .ok (min k M.toNat, e') ∧
      e' + (Q.take (min k M.toNat)).sum = e + (Q.take k).sum := by
  intro k
  induction k with
  | zero => intro e _; exact ⟨e, by simp [maxLoop, hM], by simp⟩
  | succ k ih =>
    intro e hk
    rw [maxLoop]
    split_ifs with h
    · rw [rd_ok (by omega : k < Q.length), Res.bind_ok]
      obtain ⟨e', h1, h2⟩ := ih (e + Q[k]) (by omega)
      have hm : min k M.toNat = min (k + 1) M.toNat := by omega
      rw [hm] at h1 h2
      exact ⟨e', h1, by rw [h2, sum_take_succ Q (by omega)]; ring⟩
    · have hm : min (k + 1) M.toNat = k + 1 := by omega
      rw [hm]
      exact ⟨e, rfl, rfl⟩

omit [IsStrictOrderedRing K] in
theorem cutLoop_spec (Q : List K) (test : K → K → Bool) {m : Int} (hm : 1 ≤ m) : ∀ (k : Nat) (e : K), 1 ≤ k →
    k ≤ Q.length → ∃ k' e', cutLoop Q test m k e = .ok (k', e') ∧ 1 ≤ k' ∧ k' ≤ k ∧ (k' = k ∨ m ≤ k') ∧
      e' + (Q.take k').sum = e + (Q.take k).sum ∧
      (m < k' → ∃ h : k' - 1 < Q.length, test e' Q[k' - 1] = false) ∧
      ∀ j, k' ≤ j → j < k → ∃ h : j < Q.length,
        test (e + (Q.take k).sum - (Q.take (j + 1)).sum) Q[j] = true := by
  intro k
  induction k with
  | zero => intro e h; omega
  | succ k ih =>
    intro e _ hk
    have hk' : k < Q.length := by omega
    rw [cutLoop, rd_ok hk', Res.bind_ok]
    by_cases ht : test e Q[k] = true ∧ (k : Int) ≥ m
    · rw [if_pos (by simpa using ht)]
      obtain ⟨k', e', h1, h2, h3, h4, h5, h6, h7⟩ := ih (e + Q[k]) (by omega) (by omega)
      have hs := sum_take_succ Q hk'
      refine ⟨k', e', h1, h2, by omega, ?_, by rw [h5, hs]; ring, h6, ?_⟩
      · rcases h4 with h | h <;> omega
      · intro j hj1 hj2
        by_cases hj : j = k
        · subst hj
          refine ⟨hk', ?_⟩
          rw [show e + (Q.take (j + 1)).sum - (Q.take (j + 1)).sum = e by ring]
          exact ht.1
        · obtain ⟨h, h8⟩ := h7 j hj1 (by omega)
          refine ⟨h, ?_⟩
          rw [show e + (Q.take (k + 1)).sum = e + Q[k] + (Q.take k).sum by rw [hs]; ring]
          exact h8
    · rw [if_neg (by simpa using ht)]
      refine ⟨k + 1, e, rfl, by omega, le_refl _, Or.inl rfl, rfl, fun hlt => ⟨by simpa using hk', ?_⟩,
        fun j h1 h2 => by omega⟩
      have h2 : (k : Int) ≥ m := by push_cast at hlt; omega
      have : ¬ test e Q[k] = true := fun h => ht ⟨h, h2⟩
      simpa using this

/-- Length bookkeeping of `cut`: what it keeps and reports. `err` is the discarded sum. -/
theorem cut_spec (o : Opts K) (Q : List K) (c : K) (hQ : Q ≠ []) (hmax : 1 ≤ o.maxdim) (hmin : 1 ≤ o.mindim) :
    ∃ k err, cut o Q c = .ok (k, if o.absolute then err else
          (if (if o.rel then (if Q.sum = 0 then 1 else Q.sum) else 1) = (0 : K) then 0 else
            err / (if o.rel then (if Q.sum = 0 then 1 else Q.sum) else 1))) ∧
      1 ≤ k ∧ k ≤ Q.length ∧ (k : Int) ≤ o.maxdim ∧
      ((k : Int) = o.maxdim ∨ k = Q.length ∨ o.mindim ≤ k) ∧
      err = (Q.drop k).sum ∧
      (o.absolute = true → (o.mindim < k → ∃ h : k - 1 < Q.length, c < Q[k - 1]) ∧
        ∀ j, k ≤ j → (j : Int) < o.maxdim → ∀ h : j < Q.length, Q[j] ≤ c) ∧
      (o.absolute = false → ∀ s, s = (if o.rel then (if Q.sum = 0 then 1 else Q.sum) else (1 : K)) →
        (o.mindim < k → c * s < (Q.drop (k - 1)).sum) ∧
        ((k : Int) < o.maxdim → k < Q.length → (Q.drop k).sum ≤ c * s)) := by
  have hl : 0 < Q.length := List.length_pos_iff.2 hQ
  obtain ⟨e1, h1, h2⟩ := maxLoop_spec Q (M := o.maxdim) (by omega) Q.length 0 (le_refl _)
  have hd : ∀ k, (Q.drop k).sum = Q.sum - (Q.take k).sum := by
    intro k
    have := congrArg List.sum (List.take_append_drop k Q)
    rw [List.sum_append] at this
    rw [← this]; ring
  rw [List.take_length, zero_add] at h2
  rw [cut, h1, Res.bind_ok]
  dsimp only
  cases ha : o.absolute with
  | true =>
    simp only [if_true]
    obtain ⟨k', e', h3, h4, h5, h6, h7, h8, h9⟩ := cutLoop_spec Q (fun _ x => decide (x ≤ c)) hmin
      (min Q.length o.maxdim.toNat) e1 (by omega) (by omega)
    refine ⟨k', e', ?_, h4, by omega, by omega, by omega, ?_, fun _ => ⟨fun h => ?_, fun j hj1 hj2 h => ?_⟩, by simp⟩
    · rw [h3, Res.bind_ok]; simp [h4]
    · rw [hd, ← h2, ← h7]; ring
    · obtain ⟨h10, h11⟩ := h8 h
      exact ⟨h10, by simpa using h11⟩
    · obtain ⟨_, h10⟩ := h9 j hj1 (by omega)
      simpa using h10
  | false =>
    simp only [Bool.false_eq_true, if_false]
    generalize hs : (if o.rel = true then (if Q.sum = 0 then 1 else Q.sum) else (1 : K)) = s
    obtain ⟨k', e', h3, h4, h5, h6, h7, h8, h9⟩ := cutLoop_spec Q (fun e x => decide (e + x ≤ c * s)) hmin
      (min Q.length o.maxdim.toNat) e1 (by omega) (by omega)
    refine ⟨k', e', ?_, h4, by omega, by omega, by omega, ?_, by simp, ?_⟩
    · rw [h3, Res.bind_ok]; simp [h4]
    · rw [hd, ← h2, ← h7]; ring
    · intro _ s2 hs2
      rw [hs2]
      refine ⟨fun h => ?_, fun hk1 hk2 => ?_⟩
      · obtain ⟨h10, h11⟩ := h8 h
        have h12 := sum_take_succ Q h10
        rw [Nat.sub_add_cancel h4] at h12
        rw [hd, ← h2, ← h7, h12]
        have : c * s < e' + Q[k' - 1] := by simpa using h11
        linarith
      · obtain ⟨h10, h11⟩ := h9 k' (le_refl _) (by omega)
        have h12 := sum_take_succ Q h10
        have h13 : e1 + (Q.take (min Q.length o.maxdim.toNat)).sum - (Q.take (k' + 1)).sum + Q[k'] ≤ c * s := by
          simpa using h11
        rw [h2] at h13
        rw [hd]
        linarith

omit [IsStrictOrderedRing K] in
theorem degenBelow_spec (Q : List K) (v tol : K) : ∀ (j d : Nat), j ≤ Q.length →
    ∃ d', degenBelow Q v tol j d = .ok d' ∧ d ≤ d' ∧ d' ≤ d + j ∧
      (∀ i, j + d - d' ≤ i → i < j → ∃ h : i < Q.length, |Q[i] - v| < tol) ∧
      (d' < d + j → ∃ h : j + d - d' - 1 < Q.length, ¬ |Q[j + d - d' - 1] - v| < tol) := by
  intro j
  induction j with
  | zero => intro d _; exact ⟨d, rfl, le_refl _, by omega, fun i h1 h2 => by omega, fun h => by omega⟩
  | succ j ih =>
    intro d hj
    rw [degenBelow, rd_ok (by omega : j < Q.length), Res.bind_ok]
    split_ifs with h
    · obtain ⟨d', h1, h2, h3, h4, h5⟩ := ih (d + 1) (by omega)
      refine ⟨d', h1, by omega, by omega, fun i hi1 hi2 => ?_, fun hd => ?_⟩
      · by_cases hij : i = j
        · subst hij; exact ⟨by omega, h⟩
        · exact h4 i (by omega) (by omega)
      · have e : j + 1 + d - d' - 1 = j + (d + 1) - d' - 1 := by omega
        obtain ⟨h6, h7⟩ := h5 (by omega)
        simp only [e]
        exact ⟨h6, h7⟩
    · refine ⟨d, rfl, le_refl _, by omega, fun i h1 h2 => by omega, fun _ => ?_⟩
      have e : j + 1 + d - d - 1 = j := by omega
      simp only [e]
      exact ⟨by omega, h⟩

omit [IsStrictOrderedRing K] in
theorem degenAbove_spec (v tol : K) : ∀ l : List K, degenAbove v tol l ≤ l.length ∧
    (∀ i, i < degenAbove v tol l → ∃ h : i < l.length, |l[i] - v| < tol) ∧
    (degenAbove v tol l < l.length → ∃ h : degenAbove v tol l < l.length, ¬ |l[degenAbove v tol l] - v| < tol) := by
  intro l
  induction l with
  | nil => exact ⟨le_refl _, fun i h => by simp [degenAbove] at h, fun h => by simp [degenAbove] at h⟩
  | cons x l ih =>
    obtain ⟨h1, h2, h3⟩ := ih
    rw [degenAbove]
    split_ifs with h
    · refine ⟨by simpa using h1, fun i hi => ?_, fun hl => ?_⟩
      · cases i with
        | zero => exact ⟨by simp, h⟩
        | succ i =>
          obtain ⟨a, b⟩ := h2 i (by omega)
          exact ⟨by simpa using a, by simpa using b⟩
      · obtain ⟨a, b⟩ := h3 (by simpa using hl)
        exact ⟨hl, by simpa using b⟩
    · exact ⟨by simp, fun i hi => by omega, fun _ => ⟨by simp, h⟩⟩

/-- Tolerance for degeneracy, on the scale of the input. -/
def tolOf (eps p v : K) : K := if v = 0 then eps * p else v / 1000

/-- Everything the long path of `truncate` does, on the scale of the input. `W` are the weights, `k` the
number kept before degeneracies are looked at. -/
structure CutOK (o : Opts K) (W : List K) (k : Nat) : Prop where
  pos : 1 ≤ k
  le : k ≤ W.length
  max : (k : Int) ≤ o.maxdim
  min : (k : Int) = o.maxdim ∨ k = W.length ∨ o.mindim ≤ k
  absStop : o.absolute = true → o.mindim < k → ∃ h : k - 1 < W.length, o.cutoff < W[k - 1]
  absAll : o.absolute = true → ∀ j, k ≤ j → (j : Int) < o.maxdim → ∀ h : j < W.length, W[j] ≤ o.cutoff
  sumStop : o.absolute = false → o.mindim < k →
    o.cutoff * (if o.rel then W.sum else 1) < (W.drop (k - 1)).sum
  sumAll : o.absolute = false → (k : Int) < o.maxdim → k < W.length →
    (W.drop k).sum ≤ o.cutoff * (if o.rel then W.sum else 1)

structure DegenOK (W : List K) (k : Nat) (v tol : K) (below above : Nat) : Prop where
  below_pos : 1 ≤ below
  below_le : below ≤ k
  below_mem : ∀ i, k - below ≤ i → i < k → ∃ h : i < W.length, |W[i] - v| < tol
  below_stop : below < k → ∃ h : k - below - 1 < W.length, ¬ |W[k - below - 1] - v| < tol
  above_le : k + above ≤ W.length
  above_mem : ∀ i, k ≤ i → i < k + above → ∃ h : i < W.length, |W[i] - v| < tol
  above_stop : k + above < W.length → ∃ h : k + above < W.length, ¬ |W[k + above] - v| < tol

theorem sum_div (W : List K) (p : K) : (W.map (· / p)).sum = W.sum / p := by
  induction W with
  | nil => simp
  | cons x l ih => rw [List.map_cons, List.sum_cons, ih, List.sum_cons]; ring

theorem weights_nonneg {P : List K} {x : K} (h : x ∈ weights P) : 0 ≤ x := by
  obtain ⟨y, _, rfl⟩ := List.mem_map.1 h
  exact le_max_right _ _

theorem weights_desc {P : List K} (h : Desc P) : Desc (weights P) := by
  unfold Desc weights
  rw [List.pairwise_map]
  exact h.imp fun hab => max_le_max_right 0 hab

theorem truncate_long {eps : K} (o : Opts K) {p p' : K} {l : List K} (hd : Desc (p :: p' :: l)) (hp : 0 < p)
    (heps : 0 < eps) (hmax : 1 ≤ o.maxdim) (hmin : 1 ≤ o.mindim) :
    ∃ W k v below above, W = weights (p :: p' :: l) ∧ CutOK o W k ∧ W[k - 1]? = some v ∧
      DegenOK W k v (tolOf eps p v) below above ∧
      truncate eps o (p :: p' :: l) =
        let fin := if o.respect && decide (below + above > 1) then
            if o.maxdim < (k + above : Nat) then (k - below, 0) else (k + above, below + above)
          else (k, below)
        .ok ⟨W.take fin.1,
          (if o.absolute || !o.rel then (W.drop k).sum else (W.drop k).sum / W.sum * p),
          v - tolOf eps p v, v + tolOf eps p v, fin.2⟩ := by
  have hp0 : p ≠ 0 := hp.ne'
  set W := weights (p :: p' :: l) with hW
  have hQ := norm_eq hp hd
  rw [← hW] at hQ
  set Q := W.map (· / p) with hQd
  have hlen : Q.length = W.length := by simp [hQd]
  have hW0 : W ≠ [] := by simp [hW, weights]
  have hget : ∀ (j : Nat) (h : j < W.length) (h' : j < Q.length), Q[j] = W[j] / p := by
    intro j h h'; simp [hQd]
  have hsum : 0 < W.sum := by
    have h0 : ∀ x ∈ weights (p' :: l), 0 ≤ x := fun x hx => weights_nonneg hx
    have : W.sum = max p 0 + (weights (p' :: l)).sum := by simp [hW, weights]
    rw [this, max_eq_left hp.le]
    have := List.sum_nonneg h0
    linarith
  have hQs : Q.sum = W.sum / p := sum_div W p
  have hQn : Q.sum ≠ 0 := by rw [hQs]; positivity
  have hdrop : ∀ k, (Q.drop k).sum = (W.drop k).sum / p := by
    intro k; rw [hQd, ← List.map_drop, sum_div]
  set c := if (o.absolute || !o.rel) = true then o.cutoff / p else o.cutoff with hc
  obtain ⟨k, err, h1, h2, h3, h4, h5, h6, h7, h8⟩ := cut_spec o Q c (by simpa [hQd] using hW0) hmax hmin
  rw [hlen] at h3 h5
  have hcut : CutOK o W k := by
    refine ⟨h2, h3, h4, h5, fun ha hk => ?_, fun ha j hj1 hj2 h => ?_, fun ha hk => ?_, fun ha hk1 hk2 => ?_⟩
    · obtain ⟨a, b⟩ := (h7 ha).1 hk
      refine ⟨by omega, ?_⟩
      rw [hget _ (by omega) a, hc, if_pos (by simp [ha])] at b
      exact (div_lt_div_iff_of_pos_right hp).1 b
    · have b := (h7 ha).2 j hj1 hj2 (by omega)
      rw [hget _ h (by omega), hc, if_pos (by simp [ha])] at b
      exact (div_le_div_iff_of_pos_right hp).1 b
    · have b := (h8 ha _ rfl).1 hk
      rw [hdrop, hc] at b
      cases hr : o.rel
      · simp only [hr, ha, Bool.not_false, Bool.or_true, if_true, Bool.false_eq_true, if_false, mul_one] at b ⊢
        exact (div_lt_div_iff_of_pos_right hp).1 b
      · simp only [hr, ha, Bool.not_true, Bool.or_false, if_true, Bool.false_eq_true, if_false, hQn] at b ⊢
        rw [hQs] at b
        rw [← mul_div_assoc] at b
        exact (div_lt_div_iff_of_pos_right hp).1 b
    · have b := (h8 ha _ rfl).2 hk1 (by omega)
      rw [hdrop, hc] at b
      cases hr : o.rel
      · simp only [hr, ha, Bool.not_false, Bool.or_true, if_true, Bool.false_eq_true, if_false, mul_one] at b ⊢
        exact (div_le_div_iff_of_pos_right hp).1 b
      · simp only [hr, ha, Bool.not_true, Bool.or_false, if_true, Bool.false_eq_true, if_false, hQn] at b ⊢
        rw [hQs] at b
        rw [← mul_div_assoc] at b
        exact (div_le_div_iff_of_pos_right hp).1 b
  have hk1 : k - 1 < W.length := by omega
  have hk1' : k - 1 < Q.length := by omega
  set v := W[k - 1] with hv
  have hvq : Q[k - 1] = v / p := hget _ hk1 hk1'
  set tq := if v / p = 0 then eps else v / p / 1000 with htq
  have htol : tq * p = tolOf eps p v := by
    rw [htq, tolOf]
    by_cases hv0 : v = 0
    · simp [hv0]
    · rw [if_neg (by simp [hv0, hp0]), if_neg hv0]
      field_simp
  have habs : ∀ x : K, |x / p - v / p| < tq ↔ |x - v| < tolOf eps p v := by
    intro x
    rw [← htol, ← sub_div, abs_div, abs_of_pos hp, div_lt_iff₀ hp]
  obtain ⟨b, b1, b2, b3, b4, b5⟩ := degenBelow_spec Q (v / p) tq (k - 1) 1 (by omega)
  obtain ⟨a1, a2, a3⟩ := degenAbove_spec (v / p) tq (Q.drop k)
  set a := degenAbove (v / p) tq (Q.drop k) with had
  have hdl : (Q.drop k).length = W.length - k := by rw [List.length_drop, hlen]
  rw [hdl] at a1
  refine ⟨W, k, v, b, a, rfl, hcut, by rw [List.getElem?_eq_getElem hk1], ⟨b2, by omega, ?_, ?_, by omega, ?_, ?_⟩, ?_⟩
  · intro i hi1 hi2
    by_cases hik : i = k - 1
    · subst hik
      refine ⟨hk1, ?_⟩
      have vpos : 0 ≤ v := weights_nonneg (List.getElem_mem hk1)
      have tpos : 0 < tolOf eps p v := by
        rw [tolOf]
        split_ifs with h
        · positivity
        · have : 0 < v := lt_of_le_of_ne vpos (Ne.symm h)
          positivity
      rw [← hv, sub_self, abs_zero]; exact tpos
    · obtain ⟨h, h'⟩ := b4 i (by omega) (by omega)
      refine ⟨by omega, ?_⟩
      rwa [hget _ (by omega) h, habs] at h'
  · intro hbk
    obtain ⟨h, h'⟩ := b5 (by omega)
    have e : k - 1 + 1 - b - 1 = k - b - 1 := by omega
    simp only [e] at h h'
    refine ⟨by omega, ?_⟩
    rwa [hget _ (by omega) h, habs] at h'
  · intro i hi1 hi2
    obtain ⟨h, h'⟩ := a2 (i - k) (by omega)
    have e : k + (i - k) = i := by omega
    simp only [List.getElem_drop, e] at h'
    rw [List.length_drop] at h
    refine ⟨by omega, ?_⟩
    rwa [hget _ (by omega) (by omega), habs] at h'
  · intro hka
    obtain ⟨h, h'⟩ := a3 (by rw [hdl]; omega)
    simp only [List.getElem_drop] at h'
    refine ⟨by omega, ?_⟩
    rwa [hget _ (by omega) (by omega), habs] at h'
  · rw [truncate, if_neg hp0]
    dsimp only
    rw [hQ, h1, Res.bind_ok]
    dsimp only
    rw [rd_ok hk1', Res.bind_ok, hvq, b1, Res.bind_ok]
    have hmap : ∀ m, (Q.take m).map (· * p) = W.take m := by
      intro m
      rw [hQd, ← List.map_take, List.map_map]
      conv_rhs => rw [← List.map_id (W.take m)]
      apply List.map_congr_left
      intro x _
      simp [hp0]
    have herr : (if o.absolute = true then err else
          (if (if o.rel = true then (if Q.sum = 0 then 1 else Q.sum) else 1) = (0 : K) then 0 else
            err / (if o.rel = true then (if Q.sum = 0 then 1 else Q.sum) else 1))) * p =
        if (o.absolute || !o.rel) = true then (W.drop k).sum else (W.drop k).sum / W.sum * p := by
      rw [h6, hdrop]
      cases o.absolute
      · cases o.rel
        · simp [hp0]
        · have : W.sum ≠ 0 := hsum.ne'
          simp only [Bool.false_eq_true, if_false, if_true, if_neg hQn, Bool.not_true, Bool.or_false]
          rw [hQs]
          field_simp
      · simp [hp0]
    rw [hmap, herr, sub_mul, add_mul, htol, div_mul_cancel₀ v hp0]

end Verif.Decomp
