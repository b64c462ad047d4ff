import Verif.Decomp.TruncateLemmas
import Mathlib.Data.List.Perm.Basic
import Mathlib.Algebra.Order.Ring.Rat
import Mathlib.Algebra.Field.Rat

/-!
# C34-C37: truncation of spectra
-/

namespace Verif.Decomp

variable {K : Type*} [Field K] [LinearOrder K] [IsStrictOrderedRing K]

/-! ## C34, C35 -/

/-- **C34 (partial).** On a non-increasing spectrum with positive first value, truncation without
`RespectDegenerate` keeps a prefix of length `m` (negative values counted as zero); `m` is within the
bounds; what is discarded beyond `maxdim` is within the cutoff, and discarding one more value would
exceed the cutoff or go below `mindim`. Missing: a spectrum whose first value is zero
(`C34_zero_counterexample`), `mindim < 1` or `maxdim < 1` (`C34_ub_counterexample`). -/
theorem C34_truncate_partial {eps : K} (heps : 0 < eps) (o : Opts K) {p : K} {l : List K} (hd : Desc (p :: l))
    (hp : 0 < p) (hmax : 1 ≤ o.maxdim) (hmin : 1 ≤ o.mindim) (hr : o.respect = false) :
    ∃ out m, truncate eps o (p :: l) = .ok out ∧ out.P = (weights (p :: l)).take m ∧ out.P.length = m ∧
      1 ≤ m ∧ (m : Int) ≤ o.maxdim ∧ min o.mindim (min o.maxdim (p :: l).length) ≤ m ∧
      (o.absolute = false →
        (o.mindim < m → o.cutoff * (if o.rel then (weights (p :: l)).sum else 1) < ((weights (p :: l)).drop (m - 1)).sum) ∧
        ((m : Int) < o.maxdim → m < (p :: l).length →
          ((weights (p :: l)).drop m).sum ≤ o.cutoff * (if o.rel then (weights (p :: l)).sum else 1))) ∧
      (o.absolute = true →
        (o.mindim < m → ∃ x, (weights (p :: l))[m - 1]? = some x ∧ o.cutoff < x) ∧
        ∀ j x, m ≤ j → (j : Int) < o.maxdim → (weights (p :: l))[j]? = some x → x ≤ o.cutoff) := by
  cases l with
  | nil =>
    refine ⟨_, 1, by rw [truncate, if_neg hp.ne'], ?_, rfl, le_refl _, hmax, ?_, fun _ => ⟨?_, ?_⟩, fun _ => ⟨?_, ?_⟩⟩
    · simp [weights, max_eq_left hp.le]
    · simp
    · intro h; push_cast at h; omega
    · intro _ h; simp at h
    · intro h; push_cast at h; omega
    · intro j x h1 _ h2
      rw [List.getElem?_eq_none (by simpa [weights] using h1)] at h2
      cases h2
  | cons p' l =>
    obtain ⟨W, k, v, below, above, rfl, hc, _, _, ht⟩ := truncate_long (eps := eps) o hd hp heps hmax hmin
    simp only [hr, Bool.false_and, Bool.false_eq_true, if_false] at ht
    have hwl : (weights (p :: p' :: l)).length = (p :: p' :: l).length := by simp [weights]
    have hle := hc.le
    have hpos := hc.pos
    refine ⟨_, k, ht, rfl, by simp only [List.length_take]; omega, hc.pos, hc.max, ?_, fun ha => ⟨hc.sumStop ha, ?_⟩, fun ha => ⟨?_, ?_⟩⟩
    · rcases hc.min with h | h | h
      · rw [h]; exact le_trans (min_le_right _ _) (min_le_left _ _)
      · rw [h, hwl]; exact le_trans (min_le_right _ _) (min_le_right _ _)
      · exact le_trans (min_le_left _ _) h
    · intro h1 h2; exact hc.sumAll ha h1 (by rw [hwl]; exact h2)
    · intro h
      obtain ⟨a, b⟩ := hc.absStop ha h
      exact ⟨_, List.getElem?_eq_getElem a, b⟩
    · intro j x h1 h2 h3
      obtain ⟨a, rfl⟩ := List.getElem?_eq_some_iff.1 h3
      exact hc.absAll ha j h1 h2 a

/-- **C34 is false when the first value is zero**: one value is kept although `mindim` is 2. -/
theorem C34_zero_counterexample : truncate (1/1000000 : ℚ) ⟨10, 2, 0, false, true, false⟩ [0, 0] =
    .ok ⟨[0], 0, -1/1000000, 1/1000000, 1⟩ := by decide +kernel

/-- **Bounds below one read outside the vector**: with `mindim = 0` and a cutoff that allows discarding
everything, and with `maxdim = 0`, `P(-1)` is read. -/
theorem C34_ub_counterexample : truncate (1/1000000 : ℚ) ⟨10, 0, 5, false, false, false⟩ [1, 1] = .ub ∧
    truncate (1/1000000 : ℚ) ⟨0, 0, 0, false, true, false⟩ [1, 1] = .ub := by decide +kernel

/-- **C35, absolute modes.** With `AbsoluteCutoff`, or without `DoRelCutoff`, the reported error is the
sum of the discarded weights. -/
theorem C35_absolute {eps : K} (heps : 0 < eps) (o : Opts K) {p : K} {l : List K} (hd : Desc (p :: l))
    (hp : 0 < p) (hmax : 1 ≤ o.maxdim) (hmin : 1 ≤ o.mindim) (hr : o.respect = false)
    (hm : o.absolute = true ∨ o.rel = false) :
    ∃ out, truncate eps o (p :: l) = .ok out ∧ out.truncerr = ((weights (p :: l)).drop out.P.length).sum := by
  cases l with
  | nil => exact ⟨_, by rw [truncate, if_neg hp.ne'], by simp [weights]⟩
  | cons p' l =>
    obtain ⟨W, k, v, below, above, rfl, hc, _, _, ht⟩ := truncate_long (eps := eps) o hd hp heps hmax hmin
    simp only [hr, Bool.false_and, Bool.false_eq_true, if_false] at ht
    refine ⟨_, ht, ?_⟩
    dsimp only
    rw [if_pos (by rcases hm with h | h <;> simp [h]), List.length_take, min_eq_left hc.le]

/-- **C35, relative mode (partial).** The reported error is the discarded fraction *times the largest
value*; it is the discarded fraction only if that value is 1 (`C35_counterexample`). -/
theorem C35_relative_partial {eps : K} (heps : 0 < eps) (o : Opts K) {p : K} {l : List K} (hd : Desc (p :: l))
    (hp : 0 < p) (hmax : 1 ≤ o.maxdim) (hmin : 1 ≤ o.mindim) (hr : o.respect = false)
    (ha : o.absolute = false) (hm : o.rel = true) :
    ∃ out, truncate eps o (p :: l) = .ok out ∧
      out.truncerr = ((weights (p :: l)).drop out.P.length).sum / (weights (p :: l)).sum * p := by
  cases l with
  | nil => exact ⟨_, by rw [truncate, if_neg hp.ne'], by simp [weights]⟩
  | cons p' l =>
    obtain ⟨W, k, v, below, above, rfl, hc, _, _, ht⟩ := truncate_long (eps := eps) o hd hp heps hmax hmin
    simp only [hr, Bool.false_and, Bool.false_eq_true, if_false] at ht
    refine ⟨_, ht, ?_⟩
    dsimp only
    rw [if_neg (by simp [ha, hm]), List.length_take, min_eq_left hc.le]

/-- **C35 is false of the code in relative mode.** Spectrum `6,3,1`, `maxdim = 2`: the discarded
fraction is `1/10`, the reported error `6/10`. -/
theorem C35_counterexample : ∃ out, truncate (1/1000000 : ℚ) ⟨2, 1, 0, false, true, false⟩ [6, 3, 1] = .ok out ∧
    out.P = [6, 3] ∧ out.truncerr = 6/10 :=
  ⟨⟨[6, 3], 6/10, 3 - 3/1000, 3 + 3/1000, 1⟩, by decide +kernel⟩

/-- **With `RespectDegenerate` the error is not updated.** Spectrum `1,1/2,1/2`, `maxdim = 2`: both
values `1/2` are discarded, one is reported. -/
theorem C35_respect_counterexample : ∃ out,
    truncate (1/1000000 : ℚ) ⟨2, 1, 0, false, false, true⟩ [1, 1/2, 1/2] = .ok out ∧
    out.P = [1] ∧ out.truncerr = 1/2 :=
  ⟨⟨[1], 1/2, 1/2 - 1/2000, 1/2 + 1/2000, 0⟩, by decide +kernel⟩

/-! ## C36 -/

theorem desc_get {W : List K} (h : Desc W) {i j : Nat} (hij : i ≤ j) (hj : j < W.length) :
    W[j] ≤ W[i]'(by omega) := by
  rcases Nat.lt_or_ge i j with hlt | hge
  · exact List.pairwise_iff_getElem.1 h i j (by omega) hj hlt
  · have : i = j := by omega
    subst this; exact le_refl _

/-- The values within the tolerance are exactly the positions counted. -/
theorem DegenOK.interval {W : List K} {k below above : Nat} {v tol : K} (hd : Desc W)
    (h : DegenOK W k v tol below above) (hk : 1 ≤ k) (hv : W[k - 1]? = some v) {i : Nat} (hi : i < W.length) :
    (|W[i] - v| < tol ↔ k - below ≤ i ∧ i < k + above) ∧ (i < k - below → v + tol ≤ W[i]) ∧
      (k + above ≤ i → W[i] ≤ v - tol) := by
  obtain ⟨hk1, hv1⟩ := List.getElem?_eq_some_iff.1 hv
  have hb1 := h.below_pos
  have hb := h.below_le
  have lo : i < k - below → v + tol ≤ W[i] := by
    intro hlt
    obtain ⟨a, b⟩ := h.below_stop (by omega)
    have h1 := desc_get hd (i := i) (j := k - below - 1) (by omega) a
    have h2 := desc_get hd (i := k - below - 1) (j := k - 1) (by omega) hk1
    rw [hv1] at h2
    rw [abs_of_nonneg (by linarith), not_lt] at b
    linarith
  have up : k + above ≤ i → W[i] ≤ v - tol := by
    intro hle
    obtain ⟨a, b⟩ := h.above_stop (by omega)
    have h1 := desc_get hd (i := k + above) (j := i) hle hi
    have h2 := desc_get hd (i := k - 1) (j := k + above) (by omega) a
    rw [hv1] at h2
    rw [abs_of_nonpos (by linarith), not_lt] at b
    linarith
  refine ⟨⟨fun hab => ?_, fun hr => ?_⟩, lo, up⟩
  · rw [abs_lt] at hab
    constructor
    · by_contra hlt; have := lo (by omega); linarith
    · by_contra hlt; have := up (by omega); linarith
  · by_cases hik : i < k
    · exact (h.below_mem i hr.1 hik).2
    · exact (h.above_mem i (by omega) hr.2).2

/-- **C36 (partial).** With `RespectDegenerate`, the values strictly between the reported bounds (those
degenerate with the value at the cut) are all kept or all discarded, at most `maxdim` values are kept,
and if the spectrum has at most `maxdim` values, at least `min(mindim, n)` are. Missing: the lower
bound when `maxdim` falls inside a multiplet, see `C36_counterexample`. -/
theorem C36_multiplet_partial {eps : K} (heps : 0 < eps) (o : Opts K) {p : K} {l : List K} (hd : Desc (p :: l))
    (hp : 0 < p) (hmax : 1 ≤ o.maxdim) (hmin : 1 ≤ o.mindim) (hr : o.respect = true) :
    ∃ out m, truncate eps o (p :: l) = .ok out ∧ out.P = (weights (p :: l)).take m ∧ out.P.length = m ∧
      (m : Int) ≤ o.maxdim ∧
      (∀ (i j : Nat) (x y : K), (weights (p :: l))[i]? = some x → (weights (p :: l))[j]? = some y →
        out.lower < x → x < out.upper → out.lower < y → y < out.upper → (i < m ↔ j < m)) ∧
      (∃ x ∈ weights (p :: l), out.lower < x ∧ x < out.upper) ∧
      (((p :: l).length : Int) ≤ o.maxdim → min o.mindim (p :: l).length ≤ m) := by
  cases l with
  | nil =>
    refine ⟨_, 1, by rw [truncate, if_neg hp.ne'], ?_, rfl, hmax, ?_, ?_, by simp⟩
    · simp [weights, max_eq_left hp.le]
    · intro i j x y hi hj _ _ _ _
      have h1 := (List.getElem?_eq_some_iff.1 hi).1
      have h2 := (List.getElem?_eq_some_iff.1 hj).1
      simp [weights] at h1 h2
      omega
    · refine ⟨p, by simp [weights, hp.le], ?_, ?_⟩ <;> dsimp only <;> linarith [div_pos hp (by norm_num : (0:K) < 1000)]
  | cons p' l =>
    obtain ⟨W, k, v, below, above, rfl, hc, hv, hg, ht⟩ := truncate_long (eps := eps) o hd hp heps hmax hmin
    simp only [hr, Bool.true_and, decide_eq_true_eq] at ht
    set W := weights (p :: p' :: l) with hW
    set tol := tolOf eps p v
    set fin := (if below + above > 1 then
            if o.maxdim < (k + above : Nat) then (k - below, 0) else (k + above, below + above)
          else (k, below)) with hfin
    have hwl : W.length = (p :: p' :: l).length := by simp [hW, weights]
    have hle := hc.le
    have hpos := hc.pos
    have hmx := hc.max
    have hal := hg.above_le
    have hbp := hg.below_pos
    have hbl := hg.below_le
    have hdw : Desc W := weights_desc hd
    have hcase : (fin.1 = k - below ∧ o.maxdim < (k + above : Nat)) ∨
        (fin.1 = k + above ∧ ((k + above : Nat) : Int) ≤ o.maxdim) := by
      rw [hfin]
      split_ifs with h1 h2
      · exact Or.inl ⟨rfl, h2⟩
      · exact Or.inr ⟨rfl, by omega⟩
      · right; dsimp only; constructor <;> omega
    have hfl : fin.1 ≤ W.length := by omega
    refine ⟨_, fin.1, ht, rfl, by simp only [List.length_take]; omega, by omega, ?_, ?_, ?_⟩
    · intro i j x y hi hj h1 h2 h3 h4
      obtain ⟨ai, rfl⟩ := List.getElem?_eq_some_iff.1 hi
      obtain ⟨aj, rfl⟩ := List.getElem?_eq_some_iff.1 hj
      dsimp only at h1 h2 h3 h4
      have e1 := (hg.interval hdw hpos hv ai).1.1 (by rw [abs_lt]; constructor <;> linarith)
      have e2 := (hg.interval hdw hpos hv aj).1.1 (by rw [abs_lt]; constructor <;> linarith)
      omega
    · obtain ⟨a, b⟩ := List.getElem?_eq_some_iff.1 hv
      have := (hg.interval hdw hpos hv a).1.2 ⟨by omega, by omega⟩
      rw [b, sub_self, abs_zero] at this
      refine ⟨v, b ▸ List.getElem_mem a, ?_, ?_⟩ <;> dsimp only <;> linarith
    · intro hlm
      rw [← hwl] at hlm ⊢
      rcases hc.min with h | h | h <;> rcases hcase with h' | h' <;> omega

/-- **C36 is false of the code**: all three values degenerate, `maxdim = 2`: nothing is kept. -/
theorem C36_counterexample : ∃ out,
    truncate (1/1000000 : ℚ) ⟨2, 1, 0, false, true, true⟩ [1, 1, 1] = .ok out ∧ out.P = [] :=
  ⟨⟨[], 1/3, 1 - 1/1000, 1 + 1/1000, 0⟩, by decide +kernel⟩

/-! ## C37 -/

omit [Field K] [IsStrictOrderedRing K] in
theorem selUpper_eq (m : Nat) (u : K) : ∀ (d : List K) (t : Nat), d.Pairwise (· ≥ ·) →
    t + d.countP (fun x => decide (u < x)) ≤ m → selUpper m u d t = d.countP (fun x => decide (u < x)) := by
  intro d
  induction d with
  | nil => intro t _ _; rfl
  | cons x d ih =>
    intro t hd ht
    rw [List.pairwise_cons] at hd
    rw [selUpper]
    by_cases hx : u < x
    · rw [List.countP_cons_of_pos (by simpa using hx)] at ht ⊢
      rw [if_pos ⟨by omega, hx⟩, ih _ hd.2 (by omega)]
    · rw [if_neg (fun h => hx h.2), List.countP_cons_of_neg (by simpa using hx)]
      symm
      rw [List.countP_eq_zero]
      intro y hy
      have := hd.1 y hy
      simp only [decide_eq_true_eq, not_lt]
      exact le_trans this (not_lt.1 hx)

omit [Field K] [IsStrictOrderedRing K] in
theorem selDegen_eq (m : Nat) (u : K) : ∀ (d : List K) (t nd : Nat), d.Pairwise (· ≥ ·) → t + nd ≤ m →
    selDegen m u d t nd = min nd (d.countP fun x => decide (u < x)) := by
  intro d
  induction d with
  | nil => intro t nd _ _; simp [selDegen]
  | cons x d ih =>
    intro t nd hd ht
    rw [List.pairwise_cons] at hd
    rw [selDegen]
    by_cases hx : u < x
    · rw [List.countP_cons_of_pos (by simpa using hx)]
      by_cases hn : nd > 0
      · rw [if_pos ⟨hn, by omega, hx⟩, ih _ _ hd.2 (by omega)]; omega
      · rw [if_neg (fun h => hn h.1)]; omega
    · rw [if_neg (fun h => hx h.2.2)]
      have : (x :: d).countP (fun x => decide (u < x)) = 0 := by
        rw [List.countP_eq_zero]
        intro y hy
        simp only [decide_eq_true_eq, not_lt]
        rcases List.mem_cons.1 hy with rfl | hy
        · exact not_lt.1 hx
        · exact le_trans (hd.1 y hy) (not_lt.1 hx)
      rw [this]; simp

omit [Field K] [IsStrictOrderedRing K] in
theorem drop_upper {u : K} : ∀ {d : List K}, d.Pairwise (· ≥ ·) →
    (∀ x ∈ d.drop (d.countP fun x => decide (u < x)), x ≤ u) ∧
    ∀ x ∈ d.take (d.countP fun x => decide (u < x)), u < x := by
  intro d
  induction d with
  | nil => intro _; simp
  | cons x d ih =>
    intro hd
    rw [List.pairwise_cons] at hd
    by_cases hx : u < x
    · rw [List.countP_cons_of_pos (by simpa using hx)]
      obtain ⟨h1, h2⟩ := ih hd.2
      refine ⟨by simpa using h1, fun y hy => ?_⟩
      rw [List.take_succ_cons] at hy
      rcases List.mem_cons.1 hy with rfl | hy
      · exact hx
      · exact h2 y hy
    · have : (x :: d).countP (fun x => decide (u < x)) = 0 := by
        rw [List.countP_eq_zero]
        intro y hy
        simp only [decide_eq_true_eq, not_lt]
        rcases List.mem_cons.1 hy with rfl | hy
        · exact not_lt.1 hx
        · exact le_trans (hd.1 y hy) (not_lt.1 hx)
      rw [this]
      refine ⟨fun y hy => ?_, by simp⟩
      rw [List.drop_zero] at hy
      rcases List.mem_cons.1 hy with rfl | hy
      · exact not_lt.1 hx
      · exact le_trans (hd.1 y hy) (not_lt.1 hx)

omit [Field K] [IsStrictOrderedRing K] in
/-- The selection loop, in terms of counts. -/
theorem select_spec (m : Nat) {lo up : K} (hlu : lo ≤ up) : ∀ (ds : List (List K)) (t nd : Nat),
    (∀ d ∈ ds, d.Pairwise (· ≥ ·)) → t + ds.flatten.countP (fun x => decide (up < x)) + nd ≤ m →
    (select m lo up ds t nd).sum = ds.flatten.countP (fun x => decide (up < x)) +
        min nd (ds.flatten.countP (fun x => decide (lo < x)) - ds.flatten.countP (fun x => decide (up < x))) ∧
      List.Forall₂ (fun d c => c ≤ d.length ∧ (∀ x ∈ d.take c, lo < x) ∧ ∀ x ∈ d.drop c, x ≤ up) ds
        (select m lo up ds t nd) := by
  intro ds
  induction ds with
  | nil => intro t nd _ _; simp [select]
  | cons d ds ih =>
    intro t nd hd ht
    have hdd := hd d (by simp)
    rw [List.flatten_cons, List.countP_append] at ht
    have hmono : ∀ l : List K, l.countP (fun x => decide (up < x)) ≤ l.countP (fun x => decide (lo < x)) := by
      intro l
      apply List.countP_mono_left
      intro x _ h
      simp only [decide_eq_true_eq] at h ⊢
      exact lt_of_le_of_lt hlu h
    have ha := selUpper_eq m up d t hdd (by omega)
    have hb := selDegen_eq m lo (d.drop (d.countP fun x => decide (up < x))) (t + d.countP fun x => decide (up < x)) nd
      (hdd.sublist (List.drop_sublist _ _)) (by omega)
    have hcd : (d.drop (d.countP fun x => decide (up < x))).countP (fun x => decide (lo < x)) =
        d.countP (fun x => decide (lo < x)) - d.countP (fun x => decide (up < x)) := by
      have h1 := congrArg (List.countP fun x => decide (lo < x)) (List.take_append_drop (d.countP fun x => decide (up < x)) d)
      rw [List.countP_append] at h1
      have h2 : (d.take (d.countP fun x => decide (up < x))).countP (fun x => decide (lo < x)) =
          d.countP fun x => decide (up < x) := by
        rw [List.countP_eq_length.2, List.length_take, min_eq_left List.countP_le_length]
        intro x hx
        simpa using lt_of_le_of_lt hlu ((drop_upper hdd).2 x hx)
      omega
    rw [select]
    rw [ha, hb, hcd]
    obtain ⟨i1, i2⟩ := ih (t + d.countP (fun x => decide (up < x)) +
      min nd (d.countP (fun x => decide (lo < x)) - d.countP (fun x => decide (up < x))))
      (nd - min nd (d.countP (fun x => decide (lo < x)) - d.countP (fun x => decide (up < x))))
      (fun d' h => hd d' (by simp [h])) (by omega)
    have m1 := hmono d
    have m2 := hmono ds.flatten
    refine ⟨?_, List.Forall₂.cons ⟨?_, fun x hx => ?_, fun x hx => ?_⟩ i2⟩
    · rw [List.sum_cons, i1, List.flatten_cons, List.countP_append, List.countP_append]
      omega
    · have := List.countP_le_length (p := fun x => decide (lo < x)) (l := d)
      omega
    · apply (drop_upper (u := lo) hdd).2 x
      exact (List.take_prefix_take_left (l := d) (by omega)).subset hx
    · apply (drop_upper (u := up) hdd).1 x
      exact (List.drop_sublist_drop_left d (by omega)).subset hx

omit [Field K] [LinearOrder K] [IsStrictOrderedRing K] in
theorem countP_split {W : List K} {q : K → Bool} {n : Nat} (hn : n ≤ W.length)
    (h1 : ∀ (i : Nat) (h : i < W.length), i < n → q W[i] = true) (h2 : ∀ (i : Nat) (h : i < W.length), n ≤ i → q W[i] = false) :
    W.countP q = n := by
  conv_lhs => rw [← List.take_append_drop n W]
  rw [List.countP_append, List.countP_eq_length.2, List.countP_eq_zero.2, List.length_take]
  · omega
  · intro x hx
    obtain ⟨i, hi, rfl⟩ := List.getElem_of_mem hx
    rw [List.length_drop] at hi
    rw [List.getElem_drop, h2 _ (by omega) (by omega)]
    simp
  · intro x hx
    obtain ⟨i, hi, rfl⟩ := List.getElem_of_mem hx
    rw [List.length_take] at hi
    rw [List.getElem_take, h1 _ (by omega) (by omega)]

/-- **C37 (partial).** Let a spectrum of non-negative values, distributed over blocks each sorted
downwards, be truncated globally. Selecting in each block with the bounds the truncation returned keeps
in total exactly as many values as the truncation kept. In each block a prefix is kept; every value
above the upper bound is kept and none at or below the lower bound is. Missing: spectra with a value
exactly at the upper bound, and negative eigenvalues in `diagHermitian` (`C37_counterexample`,
`C37_negative_counterexample`). -/
theorem C37_select_partial {eps : K} (heps : 0 < eps) (o : Opts K) {P : List K} (hd : Desc P) (hne : P ≠ [])
    (h0 : ∀ x ∈ P, 0 ≤ x) (hmax : 1 ≤ o.maxdim) (hmin : 1 ≤ o.mindim) {blocks : List (List K)}
    (hb : ∀ d ∈ blocks, Desc d) (hperm : blocks.flatten.Perm P) :
    ∃ out, truncate eps o P = .ok out ∧ (out.upper ∉ P →
      (select out.P.length out.lower out.upper blocks 0 out.ndegen).sum = out.P.length ∧
      List.Forall₂ (fun d c => c ≤ d.length ∧ (∀ x ∈ d.take c, out.lower < x) ∧ ∀ x ∈ d.drop c, x ≤ out.upper)
        blocks (select out.P.length out.lower out.upper blocks 0 out.ndegen)) := by
  have hw : weights P = P := by
    unfold weights
    conv_rhs => rw [← List.map_id P]
    apply List.map_congr_left
    intro x hx; simpa using h0 x hx
  have fin : ∀ (m nd : Nat) (lo up : K), lo ≤ up → P.countP (fun x => decide (up < x)) + nd = m →
      nd + P.countP (fun x => decide (up < x)) ≤ P.countP (fun x => decide (lo < x)) →
      (select m lo up blocks 0 nd).sum = m ∧
      List.Forall₂ (fun d c => c ≤ d.length ∧ (∀ x ∈ d.take c, lo < x) ∧ ∀ x ∈ d.drop c, x ≤ up)
        blocks (select m lo up blocks 0 nd) := by
    intro m nd lo up hlu h1 h2
    have c1 := hperm.countP_eq fun x => decide (up < x)
    have c2 := hperm.countP_eq fun x => decide (lo < x)
    obtain ⟨s1, s2⟩ := select_spec m hlu blocks 0 nd hb (by rw [c1]; omega)
    refine ⟨?_, s2⟩
    rw [s1, c1, c2]; omega
  have zero : ∀ (p : K) (l : List K), P = p :: l → p = 0 → ∃ out, (Res.ok (Out.mk [p] 0 (-eps) eps 1) : Res (Out K)) = .ok out ∧
      (out.upper ∉ P →
      (select out.P.length out.lower out.upper blocks 0 out.ndegen).sum = out.P.length ∧
      List.Forall₂ (fun d c => c ≤ d.length ∧ (∀ x ∈ d.take c, out.lower < x) ∧ ∀ x ∈ d.drop c, x ≤ out.upper)
        blocks (select out.P.length out.lower out.upper blocks 0 out.ndegen)) := by
    intro p l hP hp
    refine ⟨_, rfl, fun _ => ?_⟩
    have hz : ∀ x ∈ P, x = 0 := by
      intro x hx
      apply le_antisymm _ (h0 x hx)
      rw [hP] at hx hd
      rcases List.mem_cons.1 hx with rfl | hx
      · exact hp.le
      · exact hp ▸ (List.pairwise_cons.1 hd).1 x hx
    apply fin
    · dsimp only; linarith
    · rw [List.countP_eq_zero.2]
      · rfl
      · intro x hx; rw [hz x hx]; simpa using heps.le
    · rw [List.countP_eq_zero.2, List.countP_eq_length.2]
      · rw [hP]; simp
      · intro x hx; rw [hz x hx]; simpa using heps
      · intro x hx; rw [hz x hx]; simpa using heps.le
  rcases P with _ | ⟨p, _ | ⟨p', l⟩⟩
  · exact absurd rfl hne
  · rw [truncate]
    split_ifs with hp
    · exact zero p [] rfl hp
    · have hpos : 0 < p := lt_of_le_of_ne (h0 p (by simp)) (Ne.symm hp)
      have ht : 0 < p / 1000 := by positivity
      refine ⟨_, rfl, fun _ => ?_⟩
      apply fin
      · dsimp only; linarith
      · rw [List.countP_eq_zero.2]
        · rfl
        · intro x hx; rw [List.mem_singleton.1 hx]; simpa using ht.le
      · rw [List.countP_eq_zero.2, List.countP_eq_length.2]
        · simp
        · intro x hx; rw [List.mem_singleton.1 hx]; simpa using ht
        · intro x hx; rw [List.mem_singleton.1 hx]; simpa using ht.le
  · by_cases hp : p = 0
    · rw [truncate, if_pos hp]
      exact zero p (p' :: l) rfl hp
    · have hpos : 0 < p := lt_of_le_of_ne (h0 p (by simp)) (Ne.symm hp)
      obtain ⟨W, k, v, below, above, hWe, hc, hv, hg, ht⟩ := truncate_long (eps := eps) o hd hpos heps hmax hmin
      rw [hw] at hWe
      subst hWe
      set W := p :: p' :: l with hW
      set tol := tolOf eps p v
      refine ⟨_, ht, fun hup => ?_⟩
      dsimp only at hup ⊢
      have hle := hc.le
      have hk := hc.pos
      have hal := hg.above_le
      have hbp := hg.below_pos
      have hbl := hg.below_le
      have tpos : 0 ≤ tol := by
        obtain ⟨a, b⟩ := List.getElem?_eq_some_iff.1 hv
        have := (hg.interval hd hk hv a).1.2 ⟨by omega, by omega⟩
        exact le_trans (abs_nonneg _) this.le
      have cu : W.countP (fun x => decide (v + tol < x)) = k - below := by
        apply countP_split (by omega)
        · intro i hi hlt
          have := (hg.interval hd hk hv hi).2.1 hlt
          have hne : v + tol ≠ W[i] := fun e => hup (e ▸ List.getElem_mem hi)
          simpa using lt_of_le_of_ne this hne
        · intro i hi hge
          simp only [decide_eq_false_iff_not, not_lt]
          by_cases hka : i < k + above
          · have := (hg.interval hd hk hv hi).1.2 ⟨hge, hka⟩
            rw [abs_lt] at this; linarith
          · have := (hg.interval hd hk hv hi).2.2 (by omega)
            linarith
      have cl : W.countP (fun x => decide (v - tol < x)) = k + above := by
        apply countP_split hal
        · intro i hi hlt
          simp only [decide_eq_true_eq]
          by_cases hkb : k - below ≤ i
          · have := (hg.interval hd hk hv hi).1.2 ⟨hkb, hlt⟩
            rw [abs_lt] at this; linarith
          · have h1 := (hg.interval hd hk hv hi).2.1 (by omega)
            have hne : v + tol ≠ W[i] := fun e => hup (e ▸ List.getElem_mem hi)
            have := lt_of_le_of_ne h1 hne
            linarith
        · intro i hi hge
          simpa using (hg.interval hd hk hv hi).2.2 hge
      apply fin
      · linarith
      · rw [cu, List.length_take]
        split_ifs <;> dsimp only <;> omega
      · rw [cu, cl]
        split_ifs <;> dsimp only <;> omega

/-- **C37 is false of the code when a value lies exactly at the upper bound**: spectrum `1001, 1000`,
nothing to truncate, two blocks. The truncation keeps both values, the selection only one. -/
theorem C37_counterexample : ∃ out,
    truncate (1/1000000 : ℚ) ⟨10, 1, 0, false, true, false⟩ [1001, 1000] = .ok out ∧ out.P = [1001, 1000] ∧
    select out.P.length out.lower out.upper [[1001], [1000]] 0 out.ndegen = [1, 0] :=
  ⟨⟨[1001, 1000], 0, 999, 1001, 1⟩, by decide +kernel⟩

/-- **C37 is false of `diagHermitian` with a negative eigenvalue kept because of `mindim`**: the
truncation counts it as zero and keeps it, the selection compares the negative value and drops it. -/
theorem C37_negative_counterexample : ∃ out,
    truncate (1/1000000 : ℚ) ⟨10, 2, 0, false, true, false⟩ [1, -1/10] = .ok out ∧ out.P = [1, 0] ∧
    select out.P.length out.lower out.upper [[1], [-1/10]] 0 out.ndegen = [1, 0] :=
  ⟨⟨[1, 0], 0, -1/1000000, 1/1000000, 1⟩, by decide +kernel⟩

/-! Examples meeting the hypotheses -/

example : ∃ out, truncate (1/1000000 : ℚ) ⟨10, 1, 1/5, false, true, false⟩ [6, 3, 1, 0] = .ok out ∧ out.P = [6, 3] :=
  ⟨⟨[6, 3], 6/10, 3 - 3/1000, 3 + 3/1000, 1⟩, by decide +kernel⟩

example : ∃ out, truncate (1/1000000 : ℚ) ⟨3, 1, 0, false, true, true⟩ [5, 2, 2, 1] = .ok out ∧ out.P = [5, 2, 2] ∧
    select out.P.length out.lower out.upper [[2, 1], [5, 2]] 0 out.ndegen = [1, 2] ∧ out.upper ∉ ([5, 2, 2, 1] : List ℚ) :=
  ⟨⟨[5, 2, 2], 1/2, 2 - 2/1000, 2 + 2/1000, 2⟩, by decide +kernel⟩

end Verif.Decomp
