import Verif.MPS.FitApplyProps

/-! # C85: `applyMPO` by fitting comes closer to the product at every step -/

noncomputable section

namespace Verif.FitApply

open Finset Verif.Limits Verif.DmrgNum

variable {𝕜 : Type*} [RCLike 𝕜]

/-- The factorization in `svdBond`: the tensors fit, one of them is orthogonal, and their product is an orthogonal projection of the
tensor factorized. It may truncate. -/
structure SplitOK (T : Split 𝕜) : Prop where
  fits : ∀ n dir l d₁ d₂ r y, let p := T n dir l d₁ d₂ r y
    p.1.l = l ∧ p.1.d = d₁ ∧ p.1.r = p.2.l ∧ p.2.d = d₂ ∧ p.2.r = r
  left : ∀ n l d₁ d₂ r y, LO (T n .left l d₁ d₂ r y).1
  right : ∀ n l d₁ d₂ r y, RO (T n .right l d₁ d₂ r y).2
  proj : ∀ n dir l d₁ d₂ r y, let p := T n dir l d₁ d₂ r y
    ∑ i : Pl l d₁ d₂ r, (starRingEnd 𝕜) (bval p.1 p.2 i.1 i.2.1 i.2.2.1 i.2.2.2) * (y i - bval p.1 p.2 i.1 i.2.1 i.2.2.1 i.2.2.2) = 0

/-- What is thrown away is at most the part `ε` of the tensor factorized. -/
def Near (T : Split 𝕜) (ε : ℝ) : Prop := ∀ n dir l d₁ d₂ r y, let p := T n dir l d₁ d₂ r y
  ∑ i : Pl l d₁ d₂ r, ‖bval p.1 p.2 i.1 i.2.1 i.2.2.1 i.2.2.2 - y i‖ ^ 2 ≤ ε * ‖y‖ ^ 2

/-- One round. -/
structure Good (M : Mpo 𝕜) (N : Nat) (dd : Int → Nat) (fac ε : ℝ) (x : Int → Site 𝕜) (e : Entry 𝕜) : Prop where
  chain : Chain N dd e.after
  best : ∀ p, Fit e.before e.b p → distSq dd N (target M dd N fac (wave x N)) (wave e.after N) ≤
    distSq dd N (target M dd N fac (wave x N)) (wave (put2 e.before e.b p) N) + ε * normSq dd N (target M dd N fac (wave x N))
  down : distSq dd N (target M dd N fac (wave x N)) (wave e.after N) ≤
    distSq dd N (target M dd N fac (wave x N)) (wave e.before N) + ε * normSq dd N (target M dd N fac (wave x N))
  norm : distSq dd N (target M dd N fac (wave x N)) (wave e.after N) =
    normSq dd N (target M dd N fac (wave x N)) - normSq dd N (wave e.after N)

/-- The rounds follow each other, from the first state to the last. -/
def Linked : (Int → Site 𝕜) → List (Entry 𝕜) → (Int → Site 𝕜) → Prop
  | s, [], r => s = r
  | s, e :: l, r => e.before = s ∧ Linked e.after l r

theorem Linked.append : ∀ {l l' : List (Entry 𝕜)} {s r q : Int → Site 𝕜}, Linked s l r → Linked r l' q → Linked s (l ++ l') q
  | [], _, _, _, _, h, h' => by cases h; exact h'
  | _ :: _, _, _, _, _, h, h' => ⟨h.1, Linked.append h.2 h'⟩

/-- What holds before bond `b` is treated. -/
structure Inv (o : Ops (Site 𝕜)) (M : Mpo 𝕜) (N : Nat) (dd : Int → Nat) (x : Int → Site 𝕜) (b : Int) (j : Job 𝕜) : Prop where
  size : j.kx.N = N
  sound : Sound o LO RO j.kx
  chain : Chain N dd j.kx.t
  l : b - 1 ≤ j.kx.l
  r : j.kx.r ≤ b + 2
  left : ∀ n : Nat, (n : Int) ≤ b - 1 → j.E n = lv M (dagM j.kx).t x n
  right : ∀ i : Nat, b + 2 ≤ (N : Int) + 1 - i → j.E (N + 1 - i) = rv M N (dagM j.kx).t x i

theorem sound_dag {o : Ops (Site 𝕜)} (ho : GaugeOK o) {s : MPS (Site 𝕜)} (h : Sound o LO RO s) : Sound o LO RO (dagM s) := by
  refine ⟨h.lo, h.gap, h.hi, fun i h1 h2 => LO_dag (h.left i h1 h2), fun i h1 h2 => RO_dag (h.right i h1 h2), fun i h1 h2 => ?_⟩
  have := h.linked i h1 h2
  rw [ho.link] at this ⊢
  exact this

/-- A round of the loop. -/
theorem body_spec {o : Ops (Site 𝕜)} (ho : GaugeOK o) {M : Mpo 𝕜} {N : Nat} {dd : Int → Nat} {x : Int → Site 𝕜} (cx : Chain N dd x) (hk : M.k N = 1)
    {T : Split 𝕜} (hT : SplitOK T) {ε : ℝ} (hε0 : 0 ≤ ε) (hε : Near T ε) (fac : ℝ) {j : Job 𝕜} {b ha : Int} (hi : Inv o M N dd x b j) (h1 : 1 ≤ b) (h2 : b < N)
    (hh : ha = 1 ∨ ha = 2) :
    ∃ j', body M T fac x j b ha = .ok j' ∧ Inv o M N dd x b j' ∧ (ha = 1 → b + 1 < N → Inv o M N dd x (b + 1) j') ∧
      (ha = 2 → 1 < b → Inv o M N dd x (b - 1) j') ∧ (ha = 2 → j'.kx.l ≤ b - 1 ∧ j'.kx.r = b + 1) ∧
      ∃ e, j'.log = j.log ++ [e] ∧ e.b = b ∧ e.ha = ha ∧ Good M N dd fac ε x e ∧ e.before = (dagM j.kx).t ∧ e.after = (dagM j'.kx).t := by
  have hN := hi.size
  obtain ⟨n, rfl⟩ : ∃ n : Nat, b = (n : Int) + 1 := ⟨(b - 1).toNat, by omega⟩
  obtain ⟨m, hm⟩ : ∃ m, n + 2 + m = N := ⟨N - (n + 2), by omega⟩
  have eL : j.E ((n : Int) + 1 - 1) = lv M (dagM j.kx).t x n := by
    rw [show (n : Int) + 1 - 1 = n by ring]; exact hi.left n (by omega)
  have eR : j.E ((n : Int) + 1 + 2) = rv M N (dagM j.kx).t x m := by
    rw [show (n : Int) + 1 + 2 = N + 1 - m by omega]; exact hi.right m (by omega)
  have lk : ∀ a b, o.link a b = true ↔ a.r = b.l := fun a b => by rw [ho.link]; simp
  have ct : Chain N dd (dagM j.kx).t := chain_dag hi.chain
  have hl : ∀ i : Int, 1 ≤ i → i ≤ n → LO ((dagM j.kx).t i) := fun i i1 i2 => LO_dag (hi.sound.left i i1 (by have := hi.l; omega))
  have hr : ∀ i : Int, (n : Int) + 3 ≤ i → i ≤ N → RO ((dagM j.kx).t i) := fun i i1 i2 => RO_dag (hi.sound.right i (by have := hi.r; omega) (by omega))
  generalize hd : (if ha = 1 then Dir.left else Dir.right) = d
  have hdl : d = .left ↔ ha = 1 := by subst hd; by_cases h : ha = 1 <;> simp [h]
  have hdr : d = .right ↔ ha ≠ 1 := by subst hd; by_cases h : ha = 1 <;> simp [h]
  set y := wfAt M N fac (dagM j.kx).t x n m with hy
  have ey : wfK fac (M.k ((n : Int) + 1)) (x (n + 1)).r (lwf (M.k ((n : Int) + 1 - 1)) (M.W (n + 1)) (x (n + 1)) (j.E ((n : Int) + 1 - 1)))
      (rwf (M.k ((n : Int) + 1 + 1)) (M.W (n + 1 + 1)) (x (n + 1 + 1)) (j.E ((n : Int) + 1 + 2))) (j.kx.t (n + 1)).l (j.kx.t (n + 1)).d (j.kx.t (n + 1 + 1)).d
        (j.kx.t (n + 1 + 1)).r = y := by
    rw [eL, eR, show (n : Int) + 1 - 1 = n by ring]; rfl
  set q := T j.log.length d ((dagM j.kx).t (n + 1)).l ((dagM j.kx).t (n + 1)).d ((dagM j.kx).t (n + 1 + 1)).d ((dagM j.kx).t (n + 1 + 1)).r (dagB y) with hq
  obtain ⟨q1, q2, q3, q4, q5⟩ := hT.fits j.log.length d ((dagM j.kx).t (n + 1)).l ((dagM j.kx).t (n + 1)).d ((dagM j.kx).t (n + 1 + 1)).d ((dagM j.kx).t (n + 1 + 1)).r (dagB y)
  rw [← hq] at q1 q2 q3 q4 q5
  have fq : Fit j.kx.t ((n : Int) + 1) q := ⟨q1, q2, q3, q4, q5⟩
  have hok : (Call.svdBond ((n : Int) + 1) q d).Ok o LO RO j.kx := by
    refine ⟨h1, by rw [hN]; exact h2, (lk _ _).2 q3, fun hb => (lk _ _).2 ?_, fun hb => (lk _ _).2 ?_, ?_, ?_⟩
    · rw [fq.l, hi.chain.link ((n : Int) + 1 - 1) (by omega) (by omega), show (n : Int) + 1 - 1 + 1 = n + 1 by ring]
    · rw [fq.r, hi.chain.link ((n : Int) + 1 + 1) (by omega) (by omega), show (n : Int) + 1 + 1 + 1 = n + 1 + 2 by ring]
    · intro e; rw [hq, e]; exact hT.left _ _ _ _ _ _
    · intro e; rw [hq, e]; exact hT.right _ _ _ _ _ _
  have il := hi.l
  have ir := hi.r
  obtain ⟨kx, e2⟩ : ∃ kx, svdBond j.kx ((n : Int) + 1) q d = .ok kx := by
    unfold svdBond
    have hhi := hi.sound.hi
    rw [if_neg (by omega), if_neg (by omega), if_neg (by omega)]
    cases d with
    | left => exact ⟨_, rfl⟩
    | right => exact ⟨_, rfl⟩
  obtain ⟨s', hN', ht, hL, hR⟩ := svdBond_sound hi.sound hok e2
  have ht' : kx.t = put2 j.kx.t ((n : Int) + 1) q := ht
  have hdt : (dagM kx).t = put2 (dagM j.kx).t ((n : Int) + 1) (dag q.1, dag q.2) := by
    change (fun i => dag (kx.t i)) = _
    rw [ht', put2_dag]
    rfl
  have fd : Fit (dagM j.kx).t ((n : Int) + 1) (dag q.1, dag q.2) := ⟨q1, q2, q3, q4, q5⟩
  have ck : Chain N dd kx.t := by rw [ht']; exact chain_put2 hi.chain h1 h2 fq
  have bq : ∀ i : Pl ((dagM j.kx).t (n + 1)).l ((dagM j.kx).t (n + 1)).d ((dagM j.kx).t (n + 1 + 1)).d ((dagM j.kx).t (n + 1 + 1)).r,
      bl (dagM j.kx).t (n + 1) (dag q.1, dag q.2) i = (starRingEnd 𝕜) (bval q.1 q.2 i.1 i.2.1 i.2.2.1 i.2.2.2) := fun i => bval_dag _ _ _ _ _ _
  have hnear : ‖bl (dagM j.kx).t (n + 1) (dag q.1, dag q.2) - y‖ ^ 2 ≤ ε * ‖y‖ ^ 2 := by
    have := hε j.log.length d ((dagM j.kx).t (n + 1)).l ((dagM j.kx).t (n + 1)).d ((dagM j.kx).t (n + 1 + 1)).d ((dagM j.kx).t (n + 1 + 1)).r (dagB y)
    rw [← hq] at this
    have e1 : ‖dagB y‖ ^ 2 = ‖y‖ ^ 2 := by
      rw [EuclideanSpace.norm_sq_eq, EuclideanSpace.norm_sq_eq]
      exact sum_congr rfl fun i _ => by simp [dagB]
    have e3 : ‖bl (dagM j.kx).t (n + 1) (dag q.1, dag q.2) - y‖ ^ 2 = ∑ i, ‖bval q.1 q.2 i.1 i.2.1 i.2.2.1 i.2.2.2 - dagB y i‖ ^ 2 := by
      rw [EuclideanSpace.norm_sq_eq]
      refine sum_congr rfl fun i _ => ?_
      rw [PiLp.sub_apply, bq, ← RCLike.norm_conj (_ - _), map_sub, starRingEnd_self_apply]
      rfl
    rw [e3, ← e1]
    exact this
  have hproj : inner 𝕜 (bl (dagM j.kx).t (n + 1) (dag q.1, dag q.2)) y = ((‖bl (dagM j.kx).t (n + 1) (dag q.1, dag q.2)‖ ^ 2 : ℝ) : 𝕜) := by
    have := hT.proj j.log.length d ((dagM j.kx).t (n + 1)).l ((dagM j.kx).t (n + 1)).d ((dagM j.kx).t (n + 1 + 1)).d ((dagM j.kx).t (n + 1 + 1)).r (dagB y)
    rw [← hq] at this
    have h0 : inner 𝕜 (bl (dagM j.kx).t (n + 1) (dag q.1, dag q.2)) (y - bl (dagM j.kx).t (n + 1) (dag q.1, dag q.2)) = 0 := by
      rw [PiLp.inner_apply, ← map_zero (starRingEnd 𝕜), ← this, map_sum]
      refine sum_congr rfl fun i _ => ?_
      rw [PiLp.sub_apply, bq, RCLike.inner_apply, map_mul, starRingEnd_self_apply, map_sub, mul_comm]
      simp [dagB]
    rw [inner_sub_right, sub_eq_zero] at h0
    rw [h0, inner_self_eq_norm_sq_to_K]
    push_cast
    rfl
  have hle := wfAt_le ct cx hk hm hl hr fac
  have e0 := dist_put2 ct cx hk hm hl hr fd fac
  rw [← hy] at e0 hle
  have hgood : Good M N dd fac ε x ⟨(n : Int) + 1, ha, (dagM j.kx).t, (dagM kx).t⟩ := by
    have hC : ε * ‖y‖ ^ 2 ≤ ε * normSq dd N (target M dd N fac (wave x N)) := mul_le_mul_of_nonneg_left hle hε0
    have hbest : ∀ p, Fit (dagM j.kx).t ((n : Int) + 1) p → distSq dd N (target M dd N fac (wave x N)) (wave (dagM kx).t N) ≤
        distSq dd N (target M dd N fac (wave x N)) (wave (put2 (dagM j.kx).t ((n : Int) + 1) p) N) + ε * normSq dd N (target M dd N fac (wave x N)) := by
      intro p fp
      have ep := dist_put2 ct cx hk hm hl hr fp fac
      rw [← hy] at ep
      rw [hdt, e0, ep]
      have := sq_nonneg ‖bl (dagM j.kx).t (n + 1) p - y‖
      linarith
    refine ⟨chain_dag ck, hbest, ?_, ?_⟩
    · have := hbest _ (fit_self ct h1 h2)
      rwa [put2_self] at this
    · dsimp only
      rw [hdt, distSq_eq, dot_put2 ct cx hk hm fd, ← hy, hproj, norm_eq ct hm hl hr fd, RCLike.ofReal_re]
      ring
  have key : ∀ i : Int, i < n + 1 ∨ n + 3 ≤ i → (dagM kx).t i = (dagM j.kx).t i := by
    intro i hi'
    rw [hdt, put2_ne _ _ (by omega) (by omega)]
  have hlv : ∀ k : Nat, k ≤ n → lv M (dagM kx).t x k = lv M (dagM j.kx).t x k := fun k hk' => lv_congr M fun i i1 i2 => ⟨key i (by omega), rfl⟩
  have hrv : ∀ k : Nat, k ≤ m → rv M N (dagM kx).t x k = rv M N (dagM j.kx).t x k := fun k hk' => rv_congr M fun i i1 i2 => ⟨key i (by omega), rfl⟩
  have hNk : kx.N = N := hN'.trans hN
  set f := lwf (M.k ((n : Int) + 1 - 1)) (M.W (n + 1)) (x (n + 1)) (j.E ((n : Int) + 1 - 1)) with hf
  set g := rwf (M.k ((n : Int) + 1 + 1)) (M.W (n + 1 + 1)) (x (n + 1 + 1)) (j.E ((n : Int) + 1 + 2)) with hg
  have eb : body M T fac x j ((n : Int) + 1) ha = .ok ⟨kx, if ha = 1 then Function.update j.E ((n : Int) + 1) (addL f (kx.t (n + 1))) else
      Function.update j.E ((n : Int) + 1 + 1) (addR g (kx.t (n + 1 + 1))), j.log ++ [⟨(n : Int) + 1, ha, (dagM j.kx).t, (dagM kx).t⟩]⟩ := by
    unfold body getE
    rw [if_pos (by omega), if_pos (by omega)]
    simp only [Res.bind_ok]
    rw [← hf, ← hg, ey, hd]
    change (svdBond j.kx ((n : Int) + 1) q d).bind _ = _
    rw [e2]
    rfl
  generalize hE : (if ha = 1 then Function.update j.E ((n : Int) + 1) (addL f (kx.t (n + 1))) else
      Function.update j.E ((n : Int) + 1 + 1) (addR g (kx.t (n + 1 + 1)))) = E' at eb
  have hE1 : ∀ k : Nat, k ≤ n → E' k = lv M (dagM kx).t x k := by
    intro k hk'
    rw [hlv k hk', ← hi.left k (by omega), ← hE]
    split
    · rw [Function.update_of_ne (by omega)]
    · rw [Function.update_of_ne (by omega)]
  have hE2 : ∀ i : Nat, i ≤ m → E' (N + 1 - i) = rv M N (dagM kx).t x i := by
    intro i hi'
    rw [hrv i hi', ← hi.right i (by omega), ← hE]
    split
    · rw [Function.update_of_ne (by omega)]
    · rw [Function.update_of_ne (by omega)]
  have slo := s'.lo
  have shi := s'.hi
  refine ⟨_, eb, ?_, ?_, ?_, ?_, _, rfl, rfl, rfl, hgood, rfl, rfl⟩
  · refine ⟨hNk, s', ck, ?_, ?_, fun k hk' => hE1 k (by omega), fun i hi' => hE2 i (by omega)⟩
    · rcases hh with h | h
      · have := hL (hdl.2 h); simp only; omega
      · have := hR (hdr.2 (by omega)); simp only; omega
    · rcases hh with h | h
      · have := hL (hdl.2 h); simp only; omega
      · have := hR (hdr.2 (by omega)); simp only; omega
  · intro h hb
    have hL' := hL (hdl.2 h)
    refine ⟨hNk, s', ck, by simp only; omega, by simp only; omega, fun k hk' => ?_, fun i hi' => hE2 i (by omega)⟩
    rcases Nat.lt_or_ge n k with hk2 | hk2
    · obtain rfl : k = n + 1 := by omega
      dsimp only
      rw [lv, hlv n le_rfl, ← eL, ← hE, if_pos h]
      push_cast
      rw [Function.update_self, hf, addL_eq, show (n : Int) + 1 - 1 = n by ring]
      rfl
    · exact hE1 k hk2
  · intro h hb
    have hR' := hR (hdr.2 (by omega))
    refine ⟨hNk, s', ck, by simp only; omega, by simp only; omega, fun k hk' => hE1 k (by omega), fun i hi' => ?_⟩
    rcases Nat.lt_or_ge m i with hk2 | hk2
    · obtain rfl : i = m + 1 := by omega
      have ei : (N : Int) - m = n + 1 + 1 := by omega
      dsimp only
      rw [rv, hrv m le_rfl, ← eR, ← hE, if_neg (by omega), ei, show (N : Int) + 1 - ((m + 1 : Nat) : Int) = n + 1 + 1 by omega, Function.update_self, hg, addR_eq]
      rfl
    · exact hE2 i hk2
  · intro h
    have hR' := hR (hdr.2 (by omega))
    simp only
    omega

/-! ## The loops -/

/-- What is added to the log. -/
def Added (P : Entry 𝕜 → Prop) (j j' : Job 𝕜) (seq : List (Int × Int)) : Prop :=
  ∃ l, j'.log = j.log ++ l ∧ (l.map fun e => (e.b, e.ha)) = seq ∧ (∀ e ∈ l, P e) ∧ Linked (dagM j.kx).t l (dagM j'.kx).t

theorem Added.trans {P : Entry 𝕜 → Prop} {j j' j'' : Job 𝕜} {s s' : List (Int × Int)} (h : Added P j j' s) (h' : Added P j' j'' s') : Added P j j'' (s ++ s') := by
  obtain ⟨l, e, m, r, k⟩ := h
  obtain ⟨l', e', m', r', k'⟩ := h'
  refine ⟨l ++ l', by rw [e', e, List.append_assoc], by rw [List.map_append, m, m'], fun x hx => ?_, k.append k'⟩
  rcases List.mem_append.mp hx with hx | hx
  · exact r x hx
  · exact r' x hx

/-- What a round does, for the loops. -/
def Rounds (I : Int → Job 𝕜 → Prop) (P : Entry 𝕜 → Prop) (N : Nat) (M : Mpo 𝕜) (T : Split 𝕜) (fac : ℝ) (x : Int → Site 𝕜) : Prop :=
  ∀ (j : Job 𝕜) (b ha : Int), I b j → 1 ≤ b → b < N → ha = 1 ∨ ha = 2 →
    ∃ j', body M T fac x j b ha = .ok j' ∧ j'.kx.N = N ∧ I b j' ∧ (ha = 1 → b + 1 < N → I (b + 1) j') ∧ (ha = 2 → 1 < b → I (b - 1) j') ∧
      (ha = 2 → j'.kx.l ≤ b - 1 ∧ j'.kx.r = b + 1) ∧ Added P j j' [(b, ha)]

theorem bonds_down {I : Int → Job 𝕜 → Prop} {P : Entry 𝕜 → Prop} {N : Nat} {M : Mpo 𝕜} {T : Split 𝕜} {fac : ℝ} {x : Int → Site 𝕜} (hR : Rounds I P N M T fac x) :
    ∀ (n : Nat) (j : Job 𝕜) (k : Nat), I n j → n < N → n ≤ k → 1 ≤ n →
    ∃ j', bonds M T fac x k n 2 j = some (.ok j') ∧ I 1 j' ∧ j'.kx.l ≤ 0 ∧ j'.kx.r = 2 ∧ Added P j j' ((List.range n).map fun (i : Nat) => ((n : Int) - i, 2)) := by
  intro n
  induction n with
  | zero => intro j k _ _ _ h; omega
  | succ n ih =>
    intro j k hi hN hk _
    obtain ⟨k, rfl⟩ : ∃ k', k = k' + 1 := ⟨k - 1, by omega⟩
    obtain ⟨j1, e1, n1, i1, _, i2, lr, a1⟩ := hR j ((n + 1 : Nat) : Int) 2 hi (by push_cast; omega) (by omega) (Or.inr rfl)
    rw [bonds, if_pos (by omega), e1]
    dsimp only
    rw [n1]
    by_cases hn : n = 0
    · subst hn
      have hnx : Sweeps.next (N : Int) 2 1 (((0 + 1 : Nat) : Int), 2) = (1, 3) := by simp [Sweeps.next]
      rw [hnx]
      have : bonds M T fac x k 1 3 j1 = some (.ok j1) := by cases k <;> simp [bonds]
      dsimp only
      rw [this]
      have hlr := lr rfl
      exact ⟨j1, rfl, by simpa using i1, by push_cast at hlr; omega, by push_cast at hlr; omega, by simpa using a1⟩
    · have hnx : Sweeps.next (N : Int) 2 1 (((n + 1 : Nat) : Int), 2) = ((n : Int), 2) := by
        simp only [Sweeps.next, show ¬ ((2 : Int) = 1) by decide, if_false]
        rw [if_neg (by push_cast; omega)]
        push_cast
        congr 1
        ring
      rw [hnx]
      dsimp only
      have i2' := i2 rfl (by push_cast; omega)
      rw [show (((n + 1 : Nat) : Int) - 1) = n by push_cast; ring] at i2'
      obtain ⟨j2, e2, i3, l2, r2, a2⟩ := ih j1 k i2' (by omega) (by omega) (by omega)
      refine ⟨j2, e2, i3, l2, r2, ?_⟩
      have := a1.trans a2
      convert this using 1
      rw [List.range_succ_eq_map, List.map_cons, List.map_map]
      simp only [List.singleton_append, Nat.cast_zero, sub_zero, List.cons.injEq, true_and]
      refine List.map_congr_left fun i _ => ?_
      simp only [Function.comp, Nat.succ_eq_add_one]
      push_cast
      congr 1
      ring

theorem bonds_up {I : Int → Job 𝕜 → Prop} {P : Entry 𝕜 → Prop} {N : Nat} {M : Mpo 𝕜} {T : Split 𝕜} {fac : ℝ} {x : Int → Site 𝕜} (hR : Rounds I P N M T fac x) :
    ∀ (n : Nat) (j : Job 𝕜) (k b : Nat), I b j → 1 ≤ b → b + n + 1 = N → n + N ≤ k →
    ∃ j', bonds M T fac x k b 1 j = some (.ok j') ∧ I 1 j' ∧ j'.kx.l ≤ 0 ∧ j'.kx.r = 2 ∧
      Added P j j' ((List.range (n + 1)).map (fun (i : Nat) => ((b : Int) + i, 1)) ++ (List.range (N - 1)).map fun (i : Nat) => ((N : Int) - 1 - i, 2)) := by
  intro n
  induction n with
  | zero =>
    intro j k b hi hb1 hN hk
    obtain ⟨k, rfl⟩ : ∃ k', k = k' + 1 := ⟨k - 1, by omega⟩
    obtain ⟨j1, e1, n1, i1, _, _, _, a1⟩ := hR j (b : Int) 1 hi (by omega) (by omega) (Or.inl rfl)
    rw [bonds, if_pos (by omega), e1]
    dsimp only
    have hnx : Sweeps.next (N : Int) 2 1 ((b : Int), 1) = ((b : Int), 2) := by
      simp only [Sweeps.next, if_true]
      rw [if_pos (by omega)]
      norm_num
    rw [n1, hnx]
    dsimp only
    obtain ⟨j2, e2, i2, l2, r2, a2⟩ := bonds_down hR b j1 k i1 (by omega) (by omega) hb1
    refine ⟨j2, e2, i2, l2, r2, ?_⟩
    have := a1.trans a2
    convert this using 1
    have hb' : N - 1 = b := by omega
    have hb'' : (N : Int) - 1 = b := by omega
    simp [hb', hb'']
  | succ n ih =>
    intro j k b hi hb1 hN hk
    obtain ⟨k, rfl⟩ : ∃ k', k = k' + 1 := ⟨k - 1, by omega⟩
    obtain ⟨j1, e1, n1, _, i1, _, _, a1⟩ := hR j (b : Int) 1 hi (by omega) (by omega) (Or.inl rfl)
    rw [bonds, if_pos (by omega), e1]
    dsimp only
    have hnx : Sweeps.next (N : Int) 2 1 ((b : Int), 1) = (((b + 1 : Nat) : Int), 1) := by
      simp only [Sweeps.next, if_true]
      rw [if_neg (by omega)]
      push_cast
      rfl
    rw [n1, hnx]
    dsimp only
    obtain ⟨j2, e2, i2, l2, r2, a2⟩ := ih j1 k (b + 1) (by have := i1 rfl (by omega); push_cast; exact this) (by omega) (by omega) (by omega)
    refine ⟨j2, e2, i2, l2, r2, ?_⟩
    have := a1.trans a2
    convert this using 1
    rw [List.range_succ_eq_map, List.map_cons, List.map_map]
    simp only [List.cons_append, List.nil_append, Nat.cast_zero, add_zero, List.cons.injEq, true_and, List.append_cancel_right_eq]
    refine List.map_congr_left fun i _ => ?_
    simp only [Function.comp, Nat.succ_eq_add_one]
    push_cast
    congr 1
    ring

theorem sweeps_spec {I : Int → Job 𝕜 → Prop} {P : Entry 𝕜 → Prop} {N : Nat} {M : Mpo 𝕜} {T : Split 𝕜} {fac : ℝ} {x : Int → Site 𝕜} (hR : Rounds I P N M T fac x)
    (hN : 2 ≤ N) {k : Nat} (hk : 2 * N ≤ k) : ∀ (n : Nat) (j : Job 𝕜), I 1 j → j.kx.l ≤ 0 → j.kx.r = 2 →
    ∃ j', sweeps M T fac x k n j = some (.ok j') ∧ I 1 j' ∧ j'.kx.l ≤ 0 ∧ j'.kx.r = 2 ∧ Added P j j' (List.replicate n (Dmrg.order N)).flatten := by
  intro n
  induction n with
  | zero => intro j hi hl hr; exact ⟨j, rfl, hi, hl, hr, [], by simp, rfl, by simp, rfl⟩
  | succ n ih =>
    intro j hi hl hr
    obtain ⟨j1, e1, i1, l1, r1, a1⟩ := bonds_up hR (N - 2) j k 1 hi le_rfl (by omega) (by omega)
    obtain ⟨j2, e2, i2, l2, r2, a2⟩ := ih j1 i1 l1 r1
    rw [sweeps, show bonds M T fac x k 1 1 j = some (.ok j1) from e1]
    dsimp only
    refine ⟨j2, e2, i2, l2, r2, ?_⟩
    have := a1.trans a2
    rw [List.replicate_succ, List.flatten_cons]
    convert this using 2
    unfold Dmrg.order
    rw [show N - 2 + 1 = N - 1 by omega]
    congr 1
    refine List.map_congr_left fun i _ => ?_
    push_cast
    congr 1
    ring

/-! ## The beginning -/

theorem fillE_spec (M : Mpo 𝕜) (x t : Int → Site 𝕜) {N : Nat} (nc : Nat) : ∀ (n : Nat) (E : Int → EV 𝕜), n ≤ N →
    (∀ i : Nat, i + n ≤ N → E (N + 1 - i) = rv M N (fun i => dag (t i)) x i) →
    (∀ i : Nat, i + nc ≤ N → i + n ≤ N ∨ nc < n → fillE M x t nc n E (N + 1 - i) = rv M N (fun i => dag (t i)) x i) ∧ fillE M x t nc n E 0 = E 0 := by
  intro n
  induction n with
  | zero => intro E _ h; exact ⟨fun i h1 h2 => h i (by omega), rfl⟩
  | succ n ih =>
    intro E hn h
    rw [fillE]
    split
    · next hc =>
      have hs : ∀ i : Nat, i + n ≤ N → Function.update E ((n : Int) + 1)
          (addR (rwf (M.k ((n : Int) + 1)) (M.W (n + 1)) (x (n + 1)) (E ((n : Int) + 1 + 1))) (t (n + 1))) (N + 1 - i) = rv M N (fun i => dag (t i)) x i := by
        intro i hi
        by_cases e : i + n = N
        · obtain ⟨i, rfl⟩ : ∃ k, i = k + 1 := ⟨i - 1, by omega⟩
          rw [show (N : Int) + 1 - ((i + 1 : Nat) : Int) = n + 1 by omega, Function.update_self, rv, show (N : Int) - i = n + 1 by omega, addR_eq,
            ← h i (by omega), show (N : Int) + 1 - i = n + 1 + 1 by omega]
        · rw [Function.update_of_ne (by omega)]
          exact h i (by omega)
      obtain ⟨a1, a2⟩ := ih _ (by omega) hs
      refine ⟨fun i h1 h2 => a1 i h1 (by omega), ?_⟩
      rw [a2, Function.update_of_ne (by omega)]
    · next hc => exact ⟨fun i h1 h2 => h i (by omega), rfl⟩

/-- `position` does not change the distance. -/
theorem position_dist {o : Ops (Site 𝕜)} (ho : GaugeOK o) {M : Mpo 𝕜} {N : Nat} {dd : Int → Nat} {x : Int → Site 𝕜} (cx : Chain N dd x) (hk : M.k N = 1) (fac : ℝ)
    {s : MPS (Site 𝕜)} (hs : Sound o LO RO s) (hN : s.N = N) (hc : Chain N dd s.t) (h1 : 1 ≤ N) :
    ∃ s', position o s 1 = .ok s' ∧ s'.N = N ∧ Sound o LO RO s' ∧ Chain N dd s'.t ∧ s'.l = 0 ∧ s'.r = 2 ∧
      distSq dd N (target M dd N fac (wave x N)) (wave (dagM s').t N) = distSq dd N (target M dd N fac (wave x N)) (wave (dagM s).t N) := by
  have lk : ∀ a b, o.link a b = true ↔ a.r = b.l := fun a b => by rw [ho.link]; simp
  have step : ∀ (u : MPS (Site 𝕜)) (b : Int) (p : Site 𝕜 × Site 𝕜), Chain N dd u.t → 1 ≤ b → b < N → Same (u.t b) (u.t (b + 1)) p →
      Chain N dd (set2 u b p).t ∧ distSq dd N (target M dd N fac (wave x N)) (wave (dagM (set2 u b p)).t N) =
        distSq dd N (target M dd N fac (wave x N)) (wave (dagM u).t N) := by
    intro u b p c b1 b2 hp
    have fp : Fit u.t b p := ⟨hp.l, hp.d₁, hp.m, hp.d₂, hp.r⟩
    have hp' := same_dag hp
    have fp' : Fit (dagM u).t b (dag p.1, dag p.2) := ⟨hp.l, hp.d₁, hp.m, hp.d₂, hp.r⟩
    have cd : Chain N dd (dagM u).t := chain_dag c
    have := dist_same (M := M) cd cx hk b1 b2 fp' (fit_self cd b1 b2) (by
      ext i
      exact hp'.val _ i.1.2 _ i.2.1.2 _ i.2.2.1.2 _ i.2.2.2.2) fac
    rw [put2_self] at this
    refine ⟨chain_put2 c b1 b2 fp, ?_⟩
    rw [← this, ← show (dagM (set2 u b p)).t = put2 (dagM u).t b (dag p.1, dag p.2) from put2_dag u.t b p]
  obtain ⟨s', e, hsnd, hN', hl, hr, hq⟩ := positionWith_spec (sL := stepL o) (sR := stepR o) (i := 1)
    (Q := fun u => u.N = N ∧ Chain N dd u.t ∧
      distSq dd N (target M dd N fac (wave x N)) (wave (dagM u).t N) = distSq dd N (target M dd N fac (wave x N)) (wave (dagM s).t N)) ho.factor
    (fun s h hl => stepL_eq h hl) (fun s h hl => stepR_eq h hl)
    (fun s h hl hq => by
      have hlo := h.lo
      obtain ⟨c', e1⟩ := step s (s.l + 1) (o.orthL (s.t (s.l + 1)) (s.t (s.l + 1 + 1))) hq.2.1 (by omega) (by rw [← hq.1]; omega)
        (ho.left _ _ ((lk _ _).1 (h.linked _ (by omega) (by omega)))).1
      exact ⟨hq.1, c', e1.trans hq.2.2⟩)
    (fun s h hr hq => by
      have hhi := h.hi
      obtain ⟨c', e1⟩ := step s (s.r - 2) (o.orthR (s.t (s.r - 2)) (s.t (s.r - 2 + 1))) hq.2.1 (by omega) (by rw [← hq.1]; omega)
        (ho.right _ _ ((lk _ _).1 (h.linked _ (by omega) (by omega)))).1
      exact ⟨hq.1, c', e1.trans hq.2.2⟩)
    hs le_rfl (by omega) ⟨hN, hc, rfl⟩
  exact ⟨s', e, hq.1, hsnd, hq.2.1, by omega, by omega, hq.2.2⟩

/-- The whole calculation. -/
theorem fit_spec {o : Ops (Site 𝕜)} (ho : GaugeOK o) {M : Mpo 𝕜} {N : Nat} {dd : Int → Nat} {x : Int → Site 𝕜} (cx : Chain N dd x) (hk : M.k N = 1)
    {T : Split 𝕜} (hT : SplitOK T) {ε : ℝ} (hε0 : 0 ≤ ε) (hε : Near T ε) (fac : ℝ) {Kx : MPS (Site 𝕜)} (hr : Reach o LO RO Kx) (hN : Kx.N = N)
    (h2 : 2 ≤ N) (hc : Chain N dd Kx.t) (n : Nat) {fuel : Nat} (hf : 2 * N ≤ fuel) :
    ∃ (y : MPS (Site 𝕜)) (log : List (Entry 𝕜)) (s : Int → Site 𝕜), fit o M T fac x fuel n Kx = some (.ok (y, log)) ∧
      (log.map fun e => (e.b, e.ha)) = (List.replicate n (Dmrg.order N)).flatten ∧ (∀ e ∈ log, Good M N dd fac ε x e) ∧ Linked s log y.t ∧
      distSq dd N (target M dd N fac (wave x N)) (wave s N) = distSq dd N (target M dd N fac (wave x N)) (wave Kx.t N) ∧
      y.N = N ∧ Chain N dd y.t ∧ Sound o LO RO y ∧ y.l = 0 ∧ y.r = 2 := by
  have h0 := sound_dag ho (C40_limits ho.factor hr)
  obtain ⟨kx, e1, n1, s1, c1, l1, r1, d1⟩ := position_dist ho cx hk fac h0 hN (chain_dag hc) (by omega)
  have ei := fillE_spec (N := N) M x kx.t 2 N (fun _ _ _ _ => 1) le_rfl (by
    intro i hi
    obtain rfl : i = 0 := by omega
    rfl)
  have hI : Inv o M N dd x 1 ⟨kx, fillE M x kx.t 2 kx.N fun _ _ _ _ => 1, []⟩ := by
    rw [n1]
    refine ⟨n1, s1, c1, by simp only; omega, by simp only; omega, fun k hk' => ?_, fun i hi => ?_⟩
    swap
    · have hi' : i + 2 ≤ N := by omega
      exact ei.1 i hi' (by omega)
    obtain rfl : k = 0 := by omega
    exact ei.2
  have hR : Rounds (Inv o M N dd x) (Good M N dd fac ε x) N M T fac x := by
    intro j b ha hi h1 h2 hh
    obtain ⟨j', e, i1, i2, i3, lr, e', hl, hb, hha, hg, hbf, haf⟩ := body_spec ho cx hk hT hε0 hε fac hi h1 h2 hh
    exact ⟨j', e, i1.size, i1, i2, i3, lr, [e'], hl, by simp [hb, hha], by simpa using hg, hbf, haf⟩
  obtain ⟨j, e2, i2, l2, r2, log, hlog, hm, hg, hl⟩ := sweeps_spec hR h2 hf n _ hI (by simp only; omega) (by simp only; omega)
  have hlo := i2.sound.lo
  refine ⟨dagM j.kx, j.log, (dagM kx).t, ?_, ?_, ?_, ?_, ?_, i2.size, chain_dag i2.chain, sound_dag ho i2.sound, ?_, r2⟩
  · unfold fit
    rw [e1]
    dsimp only
    rw [e2]
  · rw [hlog]; exact hm
  · rw [hlog]; exact hg
  · rw [hlog]; exact hl
  · rw [d1, dagM_dagM]
  · change j.kx.l = 0
    omega

end Verif.FitApply
