import Verif.MPS.FitApplyC85

/-! # C85: the claims, and where fitting fails -/

noncomputable section

namespace Verif.FitApply

open Finset Verif.Limits Verif.DmrgNum

variable {𝕜 : Type*} [RCLike 𝕜]

theorem linked_le {D : (Int → Site 𝕜) → ℝ} {δ : ℝ} : ∀ {l : List (Entry 𝕜)} {s r : Int → Site 𝕜}, Linked s l r → (∀ e ∈ l, D e.after ≤ D e.before + δ) →
    D r ≤ D s + l.length * δ
  | [], s, r, h, _ => by cases h; simp
  | e :: l, s, r, h, h' => by
    have h1 := linked_le h.2 fun e' he => h' e' (List.mem_cons_of_mem _ he)
    have h2 := h' e List.mem_cons_self
    rw [h.1] at h2
    rw [List.length_cons]
    push_cast
    linarith

theorem linked_last : ∀ {l : List (Entry 𝕜)} {s r : Int → Site 𝕜}, Linked s l r → l ≠ [] → ∃ e, l.getLast? = some e ∧ e.after = r
  | [], _, _, _, h => absurd rfl h
  | [e], _, _, h, _ => ⟨e, rfl, h.2⟩
  | e :: e' :: l, _, _, h, _ => by
    obtain ⟨e2, h1, h2⟩ := linked_last h.2 (by simp)
    exact ⟨e2, by rw [List.getLast?_cons_cons]; exact h1, h2⟩

theorem linked_mono {D : (Int → Site 𝕜) → ℝ} : ∀ {l : List (Entry 𝕜)} {s r : Int → Site 𝕜}, Linked s l r → (∀ e ∈ l, D e.after ≤ D e.before) →
    (∀ e ∈ l, D e.after ≤ D s) ∧ (l.map fun e => D e.after).Pairwise (fun a b => b ≤ a)
  | [], _, _, _, _ => ⟨by simp, by simp⟩
  | e :: l, s, r, h, h' => by
    obtain ⟨a1, a2⟩ := linked_mono h.2 fun e' he => h' e' (List.mem_cons_of_mem _ he)
    have h2 := h' e List.mem_cons_self
    rw [h.1] at h2
    refine ⟨fun e' he => ?_, ?_⟩
    · rcases List.mem_cons.1 he with rfl | he
      · exact h2
      · exact (a1 e' he).trans h2
    · rw [List.map_cons, List.pairwise_cons]
      refine ⟨fun z hz => ?_, a2⟩
      obtain ⟨e', he, rfl⟩ := List.mem_map.1 hz
      exact a1 e' he

theorem log_ne {N n : Nat} {log : List (Entry 𝕜)} (h2 : 2 ≤ N) (hn : 1 ≤ n)
    (hm : (log.map fun e => (e.b, e.ha)) = (List.replicate n (Dmrg.order N)).flatten) : log ≠ [] := by
  rintro rfl
  obtain ⟨k, rfl⟩ : ∃ k, n = k + 1 := ⟨n - 1, by omega⟩
  have := congrArg List.length hm
  simp [List.replicate_succ, Dmrg.order] at this
  omega

/-- **C85** (best choice). Fitting with two or more sites and from any initial state, in any gauge, ends without error and treats each
bond of each sweep in turn. After each round the distance from `fac*K*x` is, up to what is truncated, the smallest that can be reached
by changing the two tensors at the bond; its square is the square of the norm of `fac*K*x` minus that of the state. So the result can
be further away than the initial state only by what was truncated in all rounds. It has its centre at site 1. -/
theorem C85_best_partial {o : Ops (Site 𝕜)} (ho : GaugeOK o) {M : Mpo 𝕜} {N : Nat} {dd : Int → Nat} {x : Int → Site 𝕜} (cx : Chain N dd x) (hk : M.k N = 1)
    {T : Split 𝕜} (hT : SplitOK T) {ε : ℝ} (hε0 : 0 ≤ ε) (hε : Near T ε) (fac : ℝ) {Kx : MPS (Site 𝕜)} (hr : Reach o LO RO Kx) (hN : Kx.N = N)
    (h2 : 2 ≤ N) (hc : Chain N dd Kx.t) {n : Nat} (hn : 1 ≤ n) {fuel : Nat} (hf : 2 * N ≤ fuel) :
    ∃ y log, fit o M T fac x fuel n Kx = some (.ok (y, log)) ∧ (log.map fun e => (e.b, e.ha)) = (List.replicate n (Dmrg.order N)).flatten ∧
      (∀ e ∈ log, ∀ p, Fit e.before e.b p → distSq dd N (target M dd N fac (wave x N)) (wave e.after N) ≤
        distSq dd N (target M dd N fac (wave x N)) (wave (put2 e.before e.b p) N) + ε * normSq dd N (target M dd N fac (wave x N))) ∧
      distSq dd N (target M dd N fac (wave x N)) (wave y.t N) ≤
        distSq dd N (target M dd N fac (wave x N)) (wave Kx.t N) + log.length * (ε * normSq dd N (target M dd N fac (wave x N))) ∧
      distSq dd N (target M dd N fac (wave x N)) (wave y.t N) = normSq dd N (target M dd N fac (wave x N)) - normSq dd N (wave y.t N) ∧
      y.N = N ∧ Chain N dd y.t ∧ y.l = 0 ∧ y.r = 2 ∧ ∀ i : Int, 2 ≤ i → i ≤ N → RO (y.t i) := by
  obtain ⟨y, log, s, e, hm, hg, hl, hd, n', c', s', l', r'⟩ := fit_spec ho cx hk hT hε0 hε fac hr hN h2 hc n hf
  refine ⟨y, log, e, hm, fun e he => (hg e he).best, ?_, ?_, n', c', l', r', fun i i1 i2 => s'.right i (by omega) (by omega)⟩
  · rw [← hd]
    exact linked_le (D := fun t => distSq dd N (target M dd N fac (wave x N)) (wave t N)) hl fun e he => (hg e he).down
  · obtain ⟨e', h1, h3⟩ := linked_last hl (log_ne h2 hn hm)
    rw [← h3]
    exact (hg e' (List.mem_of_getLast? h1)).norm

/-- **C85** (monotone). When nothing is truncated the distance from `fac*K*x` never increases from round to round; it is never larger
than that of the initial state, and the state after the last round is the result. -/
theorem C85_monotone_partial {o : Ops (Site 𝕜)} (ho : GaugeOK o) {M : Mpo 𝕜} {N : Nat} {dd : Int → Nat} {x : Int → Site 𝕜} (cx : Chain N dd x) (hk : M.k N = 1)
    {T : Split 𝕜} (hT : SplitOK T) (hε : Near T 0) (fac : ℝ) {Kx : MPS (Site 𝕜)} (hr : Reach o LO RO Kx) (hN : Kx.N = N)
    (h2 : 2 ≤ N) (hc : Chain N dd Kx.t) {n : Nat} (hn : 1 ≤ n) {fuel : Nat} (hf : 2 * N ≤ fuel) :
    ∃ y log, fit o M T fac x fuel n Kx = some (.ok (y, log)) ∧
      (log.map fun e => distSq dd N (target M dd N fac (wave x N)) (wave e.after N)).Pairwise (fun a b => b ≤ a) ∧
      (∀ e ∈ log, distSq dd N (target M dd N fac (wave x N)) (wave e.after N) ≤ distSq dd N (target M dd N fac (wave x N)) (wave Kx.t N)) ∧
      ∃ e, log.getLast? = some e ∧ e.after = y.t := by
  obtain ⟨y, log, s, e, hm, hg, hl, hd, -⟩ := fit_spec ho cx hk hT le_rfl hε fac hr hN h2 hc n hf
  have := linked_mono (D := fun t => distSq dd N (target M dd N fac (wave x N)) (wave t N)) hl fun e he => by simpa using (hg e he).down
  refine ⟨y, log, e, this.2, ?_, linked_last hl (log_ne h2 hn hm)⟩
  rw [← hd]
  exact this.1

/-- With one site `E[b+2]` is outside of the vector. -/
theorem C85_one_site_counterexample {o : Ops (Site 𝕜)} (ho : GaugeOK o) (M : Mpo 𝕜) (x : Int → Site 𝕜) (T : Split 𝕜) (fac : ℝ) {Kx : MPS (Site 𝕜)}
    (hr : Reach o LO RO Kx) (hN : Kx.N = 1) {n : Nat} (hn : 1 ≤ n) {fuel : Nat} (hf : 1 ≤ fuel) : fit o M T fac x fuel n Kx = some .ub := by
  obtain ⟨fuel, rfl⟩ : ∃ k, fuel = k + 1 := ⟨fuel - 1, by omega⟩
  obtain ⟨n, rfl⟩ : ∃ k, n = k + 1 := ⟨n - 1, by omega⟩
  have h0 := sound_dag ho (C40_limits ho.factor hr)
  obtain ⟨kx, e1, s1, n1, -⟩ := positionWith_spec (sL := stepL o) (sR := stepR o) (Q := fun _ => True) ho.factor
    (fun s h hl => stepL_eq h hl) (fun s h hl => stepR_eq h hl) (fun _ _ _ _ => trivial) (fun _ _ _ _ => trivial) h0
    (i := 1) le_rfl (by change (1 : Int) ≤ Kx.N; omega) trivial
  have n2 : kx.N = 1 := n1.trans hN
  unfold fit
  rw [show position o (dagM Kx) 1 = .ok kx from e1]
  dsimp only
  rw [sweeps, bonds, if_pos (by decide)]
  have : ∀ E l, body M T fac x ⟨kx, E, l⟩ 1 1 = .ub := by
    intro E l
    unfold body getE
    dsimp only
    rw [if_pos (by omega), if_neg (by omega)]
    rfl
  rw [this]

/-! ## A state which fitting does not leave -/

/-- One spin, up. -/
def up : Site 𝕜 := ⟨1, 2, 1, fun _ s _ => if s = 0 then 1 else 0⟩

/-- Zero. -/
def nil : Site 𝕜 := ⟨1, 2, 1, fun _ _ _ => 0⟩

open Classical in
/-- Factorizations for `position` which leave tensors in the right gauge as they are. -/
def lazyOps : Ops (Site 𝕜) := ⟨fun a b => decide (a.r = b.l), fun a b => if LO a then (a, b) else trivL (blk a b), fun a b => if RO b then (a, b) else trivR (blk a b)⟩

theorem lazyOps_ok : GaugeOK (lazyOps (𝕜 := 𝕜)) := by
  refine ⟨fun _ _ => rfl, fun a b h => ?_, fun a b h => ?_⟩
  · by_cases hl : LO a
    · simp only [lazyOps, if_pos hl]
      exact ⟨⟨rfl, rfl, h, rfl, rfl, fun _ _ _ _ _ _ _ _ => rfl⟩, hl⟩
    · simp only [lazyOps, if_neg hl]
      exact exOps_ok.left a b h
  · by_cases hl : RO b
    · simp only [lazyOps, if_pos hl]
      exact ⟨⟨rfl, rfl, h, rfl, rfl, fun _ _ _ _ _ _ _ _ => rfl⟩, hl⟩
    · simp only [lazyOps, if_neg hl]
      exact exOps_ok.right a b h

open Classical in
/-- A factorization which truncates nothing and keeps one state of a tensor that is zero. -/
def lazySplit : Split 𝕜 := fun _ dir l d₁ d₂ r y =>
  if y = 0 ∧ l = 1 ∧ d₁ = 2 ∧ d₂ = 2 ∧ r = 1 then
    match dir with
    | .left => (up, nil)
    | .right => (nil, up)
  else
    match dir with
    | .left => trivL y
    | .right => trivR y

theorem up_lo : LO (up (𝕜 := 𝕜)) := by
  intro c' h' c h
  simp only [up] at h h'
  obtain rfl : c' = 0 := by omega
  obtain rfl : c = 0 := by omega
  simp [up, sum_range_succ]

theorem up_ro : RO (up (𝕜 := 𝕜)) := by
  intro c' h' c h
  simp only [up] at h h'
  obtain rfl : c' = 0 := by omega
  obtain rfl : c = 0 := by omega
  simp [up, sum_range_succ]

theorem lazySplit_exact (n : Nat) (dir : Dir) (l d₁ d₂ r : Nat) (y : Block 𝕜 l d₁ d₂ r) (i : Pl l d₁ d₂ r) :
    bval (lazySplit n dir l d₁ d₂ r y).1 (lazySplit n dir l d₁ d₂ r y).2 i.1 i.2.1 i.2.2.1 i.2.2.2 = y i := by
  unfold lazySplit
  by_cases h : y = 0 ∧ l = 1 ∧ d₁ = 2 ∧ d₂ = 2 ∧ r = 1
  · rw [if_pos h, h.1]
    cases dir <;> simp [bval, up, nil]
  · rw [if_neg h]
    cases dir
    · exact bval_trivL y i
    · exact bval_trivR y i

theorem lazySplit_ok : SplitOK (lazySplit (𝕜 := 𝕜)) := by
  refine ⟨fun n dir l d₁ d₂ r y => ?_, fun n l d₁ d₂ r y => ?_, fun n l d₁ d₂ r y => ?_, fun n dir l d₁ d₂ r y => ?_⟩
  · unfold lazySplit
    by_cases h : y = 0 ∧ l = 1 ∧ d₁ = 2 ∧ d₂ = 2 ∧ r = 1
    · obtain ⟨h0, rfl, rfl, rfl, rfl⟩ := h
      rw [if_pos ⟨h0, rfl, rfl, rfl, rfl⟩]
      cases dir <;> exact ⟨rfl, rfl, rfl, rfl, rfl⟩
    · rw [if_neg h]
      cases dir <;> exact ⟨rfl, rfl, rfl, rfl, rfl⟩
  · unfold lazySplit
    split
    · exact up_lo
    · exact trivL_lo y
  · unfold lazySplit
    split
    · exact up_ro
    · exact trivR_ro y
  · simp only [lazySplit_exact, sub_self, mul_zero, sum_const_zero]

theorem lazySplit_near : Near (lazySplit (𝕜 := 𝕜)) 0 := by
  intro n dir l d₁ d₂ r y
  simp [lazySplit_exact]

theorem tr_up (i : Int) {A' : Site 𝕜} (h : A' = up ∨ A' = nil) (u v : Nat × Nat × Nat) : tr (exM.W i) A' up u v = 0 := by
  rcases h with rfl | rfl <;> simp [tr, exM, up, nil, sum_range_succ]

theorem svdBond_t {s s' : MPS (Site 𝕜)} {b : Int} {p : Site 𝕜 × Site 𝕜} {d : Dir} (h : svdBond s b p d = .ok s') : s'.t = put2 s.t b p := by
  unfold svdBond at h
  cases d with
  | left =>
    dsimp only at h
    split_ifs at h
    all_goals cases h; rfl
  | right =>
    dsimp only at h
    split_ifs at h
    all_goals cases h; rfl

theorem body_kx {M : Mpo 𝕜} {T : Split 𝕜} {fac : ℝ} {x : Int → Site 𝕜} {j j' : Job 𝕜} {b ha : Int} (h : body M T fac x j b ha = .ok j') :
    j'.kx.t = put2 j.kx.t b (T j.log.length (if ha = 1 then Dir.left else Dir.right) (j.kx.t b).l (j.kx.t b).d (j.kx.t (b + 1)).d (j.kx.t (b + 1)).r
      (dagB (wfK fac (M.k b) (x b).r (lwf (M.k (b - 1)) (M.W b) (x b) (j.E (b - 1))) (rwf (M.k (b + 1)) (M.W (b + 1)) (x (b + 1)) (j.E (b + 2)))
        (j.kx.t b).l (j.kx.t b).d (j.kx.t (b + 1)).d (j.kx.t (b + 1)).r))) := by
  unfold body getE at h
  split at h
  swap
  · exact absurd h (by simp [Res.bind])
  simp only [Res.bind_ok] at h
  split at h
  swap
  · exact absurd h (by simp [Res.bind])
  simp only [Res.bind_ok] at h
  obtain ⟨kx, h1, h2⟩ := Res.bind_eq_ok.1 h
  cases h2
  exact svdBond_t h1

theorem stuck_round {N : Nat} (hN : 4 ≤ N) (fac : ℝ) :
    Rounds (fun b (j : Job 𝕜) => Inv lazyOps exM N (fun _ => 2) (fun _ => up) b j ∧ ∀ i : Int, 1 ≤ i → i ≤ N → j.kx.t i = up ∨ j.kx.t i = nil) (fun _ => True) N exM lazySplit
      fac fun _ => up := by
  have cx : Chain N (fun _ => 2) (fun _ => up (𝕜 := 𝕜)) := ⟨rfl, rfl, fun _ _ _ => rfl, fun _ _ _ => rfl⟩
  intro j b ha ⟨hi, hs⟩ h1 h2 hh
  obtain ⟨j', e, i1, i2, i3, lr, e', hl, hb, hha, hg, hbf, haf⟩ := body_spec lazyOps_ok cx rfl lazySplit_ok le_rfl lazySplit_near fac hi h1 h2 hh
  have ht := body_kx e
  have hd : ∀ i : Int, (dagM j.kx).t i = dag (j.kx.t i) := fun _ => rfl
  have hdag : ∀ i : Int, 1 ≤ i → i ≤ N → (dagM j.kx).t i = up ∨ (dagM j.kx).t i = nil := by
    intro i i1 i2
    rw [hd]
    rcases hs i i1 i2 with h | h <;> rw [h]
    · left; simp only [dag, up, Site.mk.injEq, true_and]; funext _ s _; split <;> simp
    · right; simp [dag, nil]
  have hz : dagB (wfK fac ((exM (𝕜 := 𝕜)).k b) (up (𝕜 := 𝕜)).r (lwf ((exM (𝕜 := 𝕜)).k (b - 1)) (exM.W b) up (j.E (b - 1))) (rwf ((exM (𝕜 := 𝕜)).k (b + 1)) (exM.W (b + 1)) up (j.E (b + 2)))
      (j.kx.t b).l (j.kx.t b).d (j.kx.t (b + 1)).d (j.kx.t (b + 1)).r) = 0 := by
    obtain ⟨n, rfl⟩ : ∃ n : Nat, b = (n : Int) + 1 := ⟨(b - 1).toNat, by omega⟩
    obtain ⟨m, hm⟩ : ∃ m, n + 2 + m = N := ⟨N - (n + 2), by omega⟩
    have eL := hi.left n (by omega)
    have eR := hi.right m (by omega)
    have : j.E ((n : Int) + 1 - 1) = (fun _ _ _ => 0) ∨ j.E ((n : Int) + 1 + 2) = fun _ _ _ => 0 := by
      rcases Nat.eq_zero_or_pos n with h | h
      · right
        obtain ⟨m, rfl⟩ : ∃ k, m = k + 1 := ⟨m - 1, by omega⟩
        rw [show (n : Int) + 1 + 2 = N + 1 - ((m + 1 : Nat) : Int) by omega, eR, rv]
        funext a w c
        rw [absR_eq]
        exact sum_eq_zero fun u _ => by rw [tr_up _ (hdag _ (by omega) (by omega)), zero_mul]
      · left
        obtain ⟨n, rfl⟩ : ∃ k, n = k + 1 := ⟨n - 1, by omega⟩
        rw [show ((n + 1 : Nat) : Int) + 1 - 1 = ((n + 1 : Nat) : Int) by ring, eL, lv]
        funext a w c
        rw [absL_eq]
        exact sum_eq_zero fun u _ => by rw [tr_up _ (hdag _ (by omega) (by omega)), mul_zero]
    ext i
    rcases this with h | h
    · simp only [dagB, wfK, lwf, h]
      simp
    · simp only [dagB, wfK, rwf, h]
      simp
  rw [hz] at ht
  have hdim : (j.kx.t b).l = 1 ∧ (j.kx.t b).d = 2 ∧ (j.kx.t (b + 1)).d = 2 ∧ (j.kx.t (b + 1)).r = 1 := by
    rcases hs b h1 (by omega) with h | h <;> rcases hs (b + 1) (by omega) (by omega) with h' | h' <;> rw [h, h'] <;> exact ⟨rfl, rfl, rfl, rfl⟩
  have hs' : ∀ i : Int, 1 ≤ i → i ≤ N → j'.kx.t i = up ∨ j'.kx.t i = nil := by
    intro i k1 k2
    rw [ht]
    have hp : ∀ n dir, lazySplit n dir (j.kx.t b).l (j.kx.t b).d (j.kx.t (b + 1)).d (j.kx.t (b + 1)).r (0 : Block 𝕜 _ _ _ _) = (up, nil) ∨
        lazySplit n dir (j.kx.t b).l (j.kx.t b).d (j.kx.t (b + 1)).d (j.kx.t (b + 1)).r (0 : Block 𝕜 _ _ _ _) = (nil, up) := by
      intro n dir
      unfold lazySplit
      rw [if_pos ⟨rfl, hdim⟩]
      cases dir
      · exact Or.inl rfl
      · exact Or.inr rfl
    by_cases hb1 : i = b
    · subst hb1
      rw [put2_fst]
      rcases hp j.log.length (if ha = 1 then Dir.left else Dir.right) with h | h <;> rw [h] <;> simp
    · by_cases hb2 : i = b + 1
      · subst hb2
        rw [put2_snd]
        rcases hp j.log.length (if ha = 1 then Dir.left else Dir.right) with h | h <;> rw [h] <;> simp
      · rw [put2_ne _ _ hb1 hb2]
        exact hs i k1 k2
  exact ⟨j', e, i1.size, ⟨i1, hs'⟩, fun a c => ⟨i2 a c, hs'⟩, fun a c => ⟨i3 a c, hs'⟩, lr, [e'], hl, by simp [hb, hha], by simp, hbf, haf⟩

/-- One spin, down. -/
def down : Site 𝕜 := ⟨1, 2, 1, fun _ s _ => if s = 1 then 1 else 0⟩

theorem flip_amp {σ' : Int → Nat} : ∀ {n : Nat}, (∀ i : Int, 1 ≤ i → i ≤ n → σ' i < 2) → ∀ (ρ : Int → Nat) (w c : Nat),
    sumCfg (fun _ => 2) n (fun σ => hop exM n σ' σ w * amp (fun _ => up (𝕜 := 𝕜)) n σ c) ρ = amp (fun _ => down) n σ' c := by
  intro n
  induction n with
  | zero => intro _ ρ w c; simp [sumCfg, hop, amp]
  | succ n ih =>
    intro h ρ w c
    have ih' := ih fun i i1 i2 => h i i1 (by push_cast; omega)
    have e : ∀ s : Nat, sumCfg (fun _ => 2) n (fun σ => hop exM (n + 1) σ' σ w * amp (fun _ => up (𝕜 := 𝕜)) (n + 1) σ c) (Function.update ρ ((n : Int) + 1) s) =
        ((if σ' ((n : Int) + 1) = s then 0 else 1) * if s = 0 then 1 else 0) * amp (fun _ => down) n σ' 0 := by
      intro s
      rw [← ih' (Function.update ρ ((n : Int) + 1) s) 0 0, ← sumCfg_mul]
      refine sumCfg_congr fun σ _ e => ?_
      have es : σ ((n : Int) + 1) = s := by rw [e _ (by omega), Function.update_self]
      rw [hop, amp, es]
      simp only [exM, up, range_one, sum_singleton]
      ring
    simp only [sumCfg, e]
    have hs := h ((n : Int) + 1) (by omega) (by push_cast; omega)
    rw [amp]
    obtain hs | hs : σ' ((n : Int) + 1) = 0 ∨ σ' ((n : Int) + 1) = 1 := by omega
    · simp [sum_range_succ, hs, down]
    · simp [sum_range_succ, hs, down]

/-- The flips of all spins in the state with all up give the product state with all down. -/
theorem flip_up {N : Nat} (σ : Int → Nat) (h : ∀ i : Int, 1 ≤ i → i ≤ N → σ i < 2) :
    target exM (fun _ => 2) N 1 (wave (fun _ => up (𝕜 := 𝕜)) N) σ = wave (fun _ => down) N σ := by
  have := flip_amp (𝕜 := 𝕜) h (fun _ => 0) 0 0
  unfold target
  rw [RCLike.ofReal_one, one_mul]
  exact this

/-- The product of a state with an operator can be a product state and yet not be found, whatever the number of sweeps: the initial
state (here `x` itself, which is what `applyMPO` takes when no other is given) is orthogonal to it, all environments are zero, and so is
every tensor made from them. -/
theorem C85_stuck_counterexample (n : Nat) : ∃ (y : MPS (Site ℝ)) (log : List (Entry ℝ)),
    fit lazyOps exM lazySplit 1 (fun _ => up) 8 n ⟨4, fun _ => up, 0, 5⟩ = some (.ok (y, log)) ∧ SplitOK (lazySplit (𝕜 := ℝ)) ∧ Near (lazySplit (𝕜 := ℝ)) 0 ∧
      (∀ σ : Int → Nat, (∀ i : Int, 1 ≤ i → i ≤ 4 → σ i < 2) → target exM (fun _ => 2) 4 1 (wave (fun _ => up (𝕜 := ℝ)) 4) σ = wave (fun _ => down) 4 σ) ∧
      wave (fun _ => down (𝕜 := ℝ)) 4 (fun _ => 1) = 1 ∧ wave y.t 4 (fun _ => 1) = 0 := by
  have cx : Chain 4 (fun _ => 2) (fun _ => up (𝕜 := ℝ)) := ⟨rfl, rfl, fun _ _ _ => rfl, fun _ _ _ => rfl⟩
  have hu : (dagM (⟨4, fun _ => up, 0, 5⟩ : MPS (Site ℝ))) = ⟨4, fun _ => up, 0, 5⟩ := by
    simp only [dagM, dag, up, MPS.mk.injEq, true_and, and_true]
    funext i
    simp
  have hr : Reach lazyOps LO RO (⟨4, fun _ => up (𝕜 := ℝ), 0, 5⟩ : MPS (Site ℝ)) := Reach.init 4 _ (by decide) fun _ _ _ => by simp [lazyOps, up]
  have h0 := C40_limits lazyOps_ok.factor hr
  obtain ⟨kx, e1, s1, n1, l1, r1, ht⟩ := positionWith_spec (sL := stepL lazyOps) (sR := stepR lazyOps) (Q := fun s => ∀ i, s.t i = up) lazyOps_ok.factor
    (fun s h hl => stepL_eq h hl) (fun s h hl => stepR_eq h hl) (fun s h _ hq i => by
      simp only [adv, set2, lazyOps, hq, if_pos up_lo]
      by_cases a : i = s.l + 1 + 1
      · simp [a]
      · by_cases a' : i = s.l + 1
        · simp [a']
        · simp [a, a', hq]) (fun s h _ hq i => by
      simp only [ret, set2, lazyOps, hq, if_pos up_ro]
      by_cases a : i = s.r - 2 + 1
      · simp [a]
      · by_cases a' : i = s.r - 2
        · simp [a']
        · simp [a, a', hq]) h0
    (i := 1) le_rfl (by decide) (fun _ => rfl)
  have ei := fillE_spec (N := 4) exM (fun _ => up) kx.t 2 4 (fun _ _ _ _ => (1 : ℝ)) le_rfl (by
    intro i hi
    obtain rfl : i = 0 := by omega
    rfl)
  have n1' : kx.N = 4 := n1
  have hI : Inv lazyOps exM 4 (fun _ => 2) (fun _ => up) 1 ⟨kx, fillE exM (fun _ => up) kx.t 2 kx.N fun _ _ _ _ => (1 : ℝ), []⟩ := by
    rw [n1']
    refine ⟨n1', s1, ?_, by simp only; omega, by simp only; omega, fun k hk' => ?_, fun i hi => ?_⟩
    · have : kx.t = fun _ => up := funext ht
      rw [this]
      exact cx
    · obtain rfl : k = 0 := by omega
      exact ei.2
    · exact ei.1 i (by push_cast at hi; omega) (by omega)
  obtain ⟨j, e2, i2, -⟩ := sweeps_spec (stuck_round (𝕜 := ℝ) (N := 4) (by decide) 1) (by decide) (k := 8) (by decide) n _ ⟨hI, fun i _ _ => Or.inl (ht i)⟩
    (by simp only; omega) (by simp only; omega)
  refine ⟨dagM j.kx, j.log, ?_, lazySplit_ok, lazySplit_near, fun σ h => flip_up σ h, by simp [wave, amp, down], ?_⟩
  · unfold fit
    rw [hu, show position lazyOps (⟨4, fun _ => up, 0, 5⟩ : MPS (Site ℝ)) 1 = .ok kx from e1]
    dsimp only
    rw [e2]
  · have h4 := i2.2 4 (by decide) (by decide)
    have : ∀ a, (dag (j.kx.t 4)).A a 1 0 = 0 := by
      intro a
      rcases h4 with h | h <;> rw [h] <;> simp [dag, up, nil]
    unfold wave
    rw [amp]
    exact sum_eq_zero fun a _ => by
      rw [show (dagM j.kx).t (((3 : Nat) : Int) + 1) = dag (j.kx.t 4) from rfl, this, mul_zero]

/-! ## The hypotheses can be met -/

/-- Four spins, three sweeps, started from `x`. -/
example : ∃ (y : MPS (Site ℂ)) (log : List (Entry ℂ)),
    fit exOps exM lazySplit 2 (fun _ => exSite) 8 3 ⟨4, fun _ => exSite, 0, 5⟩ = some (.ok (y, log)) ∧ log.length = 18 ∧
      distSq (fun _ => 2) 4 (target exM (fun _ => 2) 4 2 (wave (fun _ => exSite) 4)) (wave y.t 4) ≤
        distSq (fun _ => 2) 4 (target exM (fun _ => 2) 4 2 (wave (fun _ => exSite) 4)) (wave (fun _ => exSite (𝕜 := ℂ)) 4) := by
  have hr : Reach exOps LO RO (⟨4, fun _ => exSite (𝕜 := ℂ), 0, 5⟩ : MPS (Site ℂ)) := Reach.init 4 _ (by decide) fun _ _ _ => by simp [exOps, exSite]
  have hc : Chain 4 (fun _ => 2) (fun _ => exSite (𝕜 := ℂ)) := ⟨rfl, rfl, fun _ _ _ => rfl, fun _ _ _ => rfl⟩
  obtain ⟨y, log, e, hm, -, hd, -⟩ := C85_best_partial (M := exM) exOps_ok hc rfl lazySplit_ok le_rfl lazySplit_near 2 hr rfl (by decide) hc (n := 3) (by decide)
    (fuel := 8) (by decide)
  refine ⟨y, log, e, ?_, by simpa using hd⟩
  have := congrArg List.length hm
  rw [List.length_map] at this
  rw [this]
  decide

end Verif.FitApply
