import Verif.MPS.FitOneC86
import Verif.MPS.FitApplyEx

/-! # C86: the loops and the claims -/

noncomputable section

namespace Verif.FitOne

open Finset Verif.Limits Verif.DmrgNum Verif.FitApply

variable {𝕜 : Type*} [RCLike 𝕜]

/-- The sites of a sweep with the half sweeps in which they are treated. -/
def order1 (N : Nat) : List (Int × Int) :=
  (List.range N).map (fun (i : Nat) => ((i : Int) + 1, 1)) ++ (List.range N).map (fun (i : Nat) => ((N : Int) - i, 2))

/-- Each round begins with at most the error of the one before and what is truncated there. -/
def Linked1 (D : Entry1 𝕜 → ℝ) (δ : ℝ) : ℝ → List (Entry1 𝕜) → ℝ → Prop
  | v, [], w => v = w
  | v, e :: l, w => D e ≤ v ∧ Linked1 D δ (D e + δ) l w

theorem Linked1.append {D : Entry1 𝕜 → ℝ} {δ : ℝ} : ∀ {l l' : List (Entry1 𝕜)} {v w u : ℝ}, Linked1 D δ v l w → Linked1 D δ w l' u → Linked1 D δ v (l ++ l') u
  | [], _, _, _, _, h, h' => by cases h; exact h'
  | _ :: _, _, _, _, _, h, h' => ⟨h.1, Linked1.append h.2 h'⟩

theorem linked1_le {D : Entry1 𝕜 → ℝ} {δ : ℝ} (hδ : 0 ≤ δ) : ∀ {l : List (Entry1 𝕜)} {v w : ℝ}, Linked1 D δ v l w → ∀ e ∈ l, D e ≤ v + l.length * δ
  | [], _, _, _, _, h => by simp at h
  | e :: l, v, w, h, e', he => by
    rcases List.mem_cons.1 he with rfl | he
    · have := h.1
      have h2 : (0 : ℝ) ≤ ((e' :: l).length : ℝ) * δ := mul_nonneg (Nat.cast_nonneg _) hδ
      linarith
    · have h1 := linked1_le hδ h.2 e' he
      have := h.1
      rw [List.length_cons]
      push_cast
      linarith

theorem linked1_mono {D : Entry1 𝕜 → ℝ} : ∀ {l : List (Entry1 𝕜)} {v w : ℝ}, Linked1 D 0 v l w → (l.map D).Pairwise (fun a b => b ≤ a)
  | [], _, _, _ => by simp
  | e :: l, v, w, h => by
    rw [List.map_cons, List.pairwise_cons]
    refine ⟨fun z hz => ?_, linked1_mono h.2⟩
    obtain ⟨e', he, rfl⟩ := List.mem_map.1 hz
    have := linked1_le le_rfl h.2 e' he
    simpa using this

theorem Inv1.mono {M : Mpo 𝕜} {N : Nat} {dd : Int → Nat} {fac : ℝ} {x : Int → Site 𝕜} {L : Int → Nat} {s : Int} {v v' : ℝ} {j : Job1 𝕜} (h : Inv1 M N dd fac x L s v j)
    (hv : v ≤ v') : Inv1 M N dd fac x L s v' j :=
  { h with chain := by obtain ⟨A, f, c, e⟩ := h.chain; exact ⟨A, f, c, e.trans hv⟩ }

/-- What is added to the log. -/
def Added1 (P : Entry1 𝕜 → Prop) (D : Entry1 𝕜 → ℝ) (δ : ℝ) (v w : ℝ) (j j' : Job1 𝕜) (seq : List (Int × Int)) : Prop :=
  ∃ l, j'.log = j.log ++ l ∧ (l.map fun e => (e.s, e.ha)) = seq ∧ (∀ e ∈ l, P e) ∧ Linked1 D δ v l w

theorem Added1.trans {P : Entry1 𝕜 → Prop} {D : Entry1 𝕜 → ℝ} {δ v w u : ℝ} {j j' j'' : Job1 𝕜} {s s' : List (Int × Int)} (h : Added1 P D δ v w j j' s)
    (h' : Added1 P D δ w u j' j'' s') : Added1 P D δ v u j j'' (s ++ s') := by
  obtain ⟨l, e, m, r, k⟩ := h
  obtain ⟨l', e', m', r', k'⟩ := h'
  refine ⟨l ++ l', by rw [e', e, List.append_assoc], by rw [List.map_append, m, m'], fun x hx => ?_, k.append k'⟩
  rcases List.mem_append.mp hx with hx | hx
  · exact r x hx
  · exact r' x hx

section loops

variable {M : Mpo 𝕜} {N : Nat} {dd : Int → Nat} {x : Int → Site 𝕜} {T : Split1 𝕜} {ε : ℝ}

theorem sites_down (cx : Chain N dd x) (hk : M.k N = 1) (hT : Split1OK T) (hε0 : 0 ≤ ε) (hε : Near1 T ε) (fac : ℝ) {L : Int → Nat} :
    ∀ (n : Nat) (j : Job1 𝕜) (k : Nat) (v : ℝ), Inv1 M N dd fac x L n v j → n ≤ N → n ≤ k → 1 ≤ n →
    ∃ j' e, sites M T fac x k n 2 j = some (.ok j') ∧ j'.log.getLast? = some e ∧ Good1 M N dd fac x e ∧ (dagM j'.kx).t = e.state ∧ j.kx.r ≤ j'.kx.r ∧
      Inv1 M N dd fac x L 1 (errOf M N dd fac x e.state + ε * normSq dd N (target M dd N fac (wave x N))) j' ∧
      Added1 (Good1 M N dd fac x) (fun e => errOf M N dd fac x e.state) (ε * normSq dd N (target M dd N fac (wave x N))) v
        (errOf M N dd fac x e.state + ε * normSq dd N (target M dd N fac (wave x N))) j j' ((List.range n).map fun (i : Nat) => ((n : Int) - i, 2)) := by
  intro n
  have hδ : 0 ≤ ε * normSq dd N (target M dd N fac (wave x N)) := mul_nonneg hε0 (normSq_nonneg _ _ _)
  induction n with
  | zero => intro j k v _ _ _ h; omega
  | succ n ih =>
    intro j k v hi hN hk' _
    obtain ⟨k, rfl⟩ : ∃ k', k = k' + 1 := ⟨k - 1, by omega⟩
    obtain ⟨j1, e1, hb, hlog, hs, hha, hg, hv, -, i2, i3, n1, r1, -⟩ :=
      round_spec cx hk hT hε0 hε fac (s := ((n + 1 : Nat) : Int)) (ha := 2) hi (by push_cast; omega) (by omega) (Or.inr rfl)
    rw [sites, if_pos (by omega), hb]
    dsimp only
    rw [n1]
    have a1 : Added1 (Good1 M N dd fac x) (fun e => errOf M N dd fac x e.state) (ε * normSq dd N (target M dd N fac (wave x N))) v
        (errOf M N dd fac x e1.state + ε * normSq dd N (target M dd N fac (wave x N))) j j1 [(((n + 1 : Nat) : Int), 2)] :=
      ⟨[e1], hlog, by simp [hs, hha], by simpa using hg, hv, rfl⟩
    by_cases hn : n = 0
    · subst hn
      have hnx : Sweeps.next (N : Int) 1 1 (((0 + 1 : Nat) : Int), 2) = (1, 3) := by simp [Sweeps.next]
      rw [hnx]
      have : sites M T fac x k 1 3 j1 = some (.ok j1) := by cases k <;> simp [sites]
      dsimp only
      rw [this]
      obtain ⟨i4, i5⟩ := i3 (Or.inr ⟨rfl, by simp⟩)
      exact ⟨j1, e1, rfl, by rw [hlog]; simp, hg, i5, r1, by simpa using i4.mono (by linarith), by simpa using a1⟩
    · have hnx : Sweeps.next (N : Int) 1 1 (((n + 1 : Nat) : Int), 2) = ((n : Int), 2) := by
        simp only [Sweeps.next, show ¬ ((2 : Int) = 1) by decide, if_false]
        rw [if_neg (by push_cast; omega)]
        push_cast
        congr 1
        ring
      rw [hnx]
      dsimp only
      have i2' := i2 rfl (by push_cast; omega)
      rw [show (((n + 1 : Nat) : Int) - 1) = n by push_cast; ring] at i2'
      obtain ⟨j2, e2, b2, l2, g2, t2, r2, iv, a2⟩ := ih j1 k _ i2' (by omega) (by omega) (by omega)
      refine ⟨j2, e2, b2, l2, g2, t2, r1.trans r2, iv, ?_⟩
      have := a1.trans a2
      convert this using 1
      rw [List.range_succ_eq_map, List.map_cons, List.map_map]
      simp only [List.singleton_append, Nat.cast_zero, sub_zero, List.cons.injEq, true_and]
      refine List.map_congr_left fun i _ => ?_
      simp only [Function.comp, Nat.succ_eq_add_one]
      push_cast
      congr 1
      ring

theorem sites_up (cx : Chain N dd x) (hk : M.k N = 1) (hT : Split1OK T) (hε0 : 0 ≤ ε) (hε : Near1 T ε) (fac : ℝ) {L : Int → Nat} :
    ∀ (n : Nat) (j : Job1 𝕜) (k b : Nat) (v : ℝ), Inv1 M N dd fac x L b v j → 1 ≤ b → b + n = N → n + 1 + N ≤ k →
    ∃ j' e, sites M T fac x k b 1 j = some (.ok j') ∧ j'.log.getLast? = some e ∧ Good1 M N dd fac x e ∧ (dagM j'.kx).t = e.state ∧ (N : Int) + 1 ≤ j'.kx.r ∧
      Inv1 M N dd fac x L 1 (errOf M N dd fac x e.state + ε * normSq dd N (target M dd N fac (wave x N))) j' ∧
      Added1 (Good1 M N dd fac x) (fun e => errOf M N dd fac x e.state) (ε * normSq dd N (target M dd N fac (wave x N))) v
        (errOf M N dd fac x e.state + ε * normSq dd N (target M dd N fac (wave x N))) j j'
        ((List.range (n + 1)).map (fun (i : Nat) => ((b : Int) + i, 1)) ++ (List.range N).map fun (i : Nat) => ((N : Int) - i, 2)) := by
  intro n
  have hδ : 0 ≤ ε * normSq dd N (target M dd N fac (wave x N)) := mul_nonneg hε0 (normSq_nonneg _ _ _)
  induction n with
  | zero =>
    intro j k b v hi hb1 hN hk'
    obtain rfl : b = N := by omega
    obtain ⟨k, rfl⟩ : ∃ k', k = k' + 1 := ⟨k - 1, by omega⟩
    obtain ⟨j1, e1, hb, hlog, hs, hha, hg, hv, -, -, i3, n1, r1, r1'⟩ :=
      round_spec cx hk hT hε0 hε fac (s := (b : Int)) (ha := 1) hi (by omega) (by omega) (Or.inl rfl)
    rw [sites, if_pos (by omega), hb]
    dsimp only
    have hnx : Sweeps.next (b : Int) 1 1 ((b : Int), 1) = ((b : Int), 2) := by
      simp only [Sweeps.next, if_true]
      rw [if_pos (by omega)]
      norm_num
    rw [n1, hnx]
    dsimp only
    have a1 : Added1 (Good1 M b dd fac x) (fun e => errOf M b dd fac x e.state) (ε * normSq dd b (target M dd b fac (wave x b))) v
        (errOf M b dd fac x e1.state + ε * normSq dd b (target M dd b fac (wave x b))) j j1 [((b : Int), 1)] :=
      ⟨[e1], hlog, by simp [hs, hha], by simpa using hg, hv, rfl⟩
    obtain ⟨i4, -⟩ := i3 (Or.inl ⟨rfl, rfl⟩)
    obtain ⟨j2, e2, b2, l2, g2, t2, r2, iv, a2⟩ := sites_down cx hk hT hε0 hε fac b j1 k _ (i4.mono (by linarith :
      _ ≤ errOf M b dd fac x e1.state + ε * normSq dd b (target M dd b fac (wave x b)))) (by omega) (by omega) hb1
    refine ⟨j2, e2, b2, l2, g2, t2, r1'.trans r2, iv, ?_⟩
    have := a1.trans a2
    convert this using 1
    simp
  | succ n ih =>
    intro j k b v hi hb1 hN hk'
    obtain ⟨k, rfl⟩ : ∃ k', k = k' + 1 := ⟨k - 1, by omega⟩
    obtain ⟨j1, e1, hb, hlog, hs, hha, hg, hv, i1, -, -, n1, r1, r1'⟩ :=
      round_spec cx hk hT hε0 hε fac (s := (b : Int)) (ha := 1) hi (by omega) (by omega) (Or.inl rfl)
    rw [sites, if_pos (by omega), hb]
    dsimp only
    have hnx : Sweeps.next (N : Int) 1 1 ((b : Int), 1) = (((b + 1 : Nat) : Int), 1) := by
      simp only [Sweeps.next, if_true]
      rw [if_neg (by omega)]
      push_cast
      rfl
    rw [n1, hnx]
    dsimp only
    have a1 : Added1 (Good1 M N dd fac x) (fun e => errOf M N dd fac x e.state) (ε * normSq dd N (target M dd N fac (wave x N))) v
        (errOf M N dd fac x e1.state + ε * normSq dd N (target M dd N fac (wave x N))) j j1 [((b : Int), 1)] :=
      ⟨[e1], hlog, by simp [hs, hha], by simpa using hg, hv, rfl⟩
    obtain ⟨j2, e2, b2, l2, g2, t2, r2, iv, a2⟩ := ih j1 k (b + 1) _ (by have := i1 rfl (by omega); push_cast; exact this) (by omega) (by omega) (by omega)
    refine ⟨j2, e2, b2, l2, g2, t2, r2, iv, ?_⟩
    have := a1.trans a2
    convert this using 1
    rw [List.range_succ_eq_map, List.map_cons, List.map_map]
    simp only [List.cons_append, List.nil_append, Nat.cast_zero, add_zero, List.cons.injEq, true_and, List.append_cancel_right_eq]
    refine List.map_congr_left fun i _ => ?_
    simp only [Function.comp, Nat.succ_eq_add_one]
    push_cast
    congr 1
    ring

theorem sweeps1_spec (cx : Chain N dd x) (hk : M.k N = 1) (hT : Split1OK T) (hε0 : 0 ≤ ε) (hε : Near1 T ε) (fac : ℝ) {L : Int → Nat} (hN : 1 ≤ N) {k : Nat} (hk' : 2 * N ≤ k) :
    ∀ (n : Nat) (j : Job1 𝕜) (v : ℝ), Inv1 M N dd fac x L 1 v j →
    ∃ j' e, sweeps1 M T fac x k (n + 1) j = some (.ok j') ∧ j'.log.getLast? = some e ∧ Good1 M N dd fac x e ∧ (dagM j'.kx).t = e.state ∧ (N : Int) + 1 ≤ j'.kx.r ∧
      Inv1 M N dd fac x L 1 (errOf M N dd fac x e.state + ε * normSq dd N (target M dd N fac (wave x N))) j' ∧
      Added1 (Good1 M N dd fac x) (fun e => errOf M N dd fac x e.state) (ε * normSq dd N (target M dd N fac (wave x N))) v
        (errOf M N dd fac x e.state + ε * normSq dd N (target M dd N fac (wave x N))) j j' (List.replicate (n + 1) (order1 N)).flatten := by
  intro n
  have ho : (List.range (N - 1 + 1)).map (fun (i : Nat) => (((1 : Nat) : Int) + i, (1 : Int))) ++ (List.range N).map (fun (i : Nat) => ((N : Int) - i, (2 : Int))) = order1 N := by
    unfold order1
    rw [show N - 1 + 1 = N by omega]
    congr 1
    refine List.map_congr_left fun i _ => ?_
    push_cast
    rw [add_comm]
  induction n with
  | zero =>
    intro j v hi
    obtain ⟨j1, e1, b1, l1, g1, t1, r1, i1, a1⟩ := sites_up cx hk hT hε0 hε fac (N - 1) j k 1 v hi le_rfl (by omega) (by omega)
    refine ⟨j1, e1, ?_, l1, g1, t1, r1, i1, ?_⟩
    · rw [sweeps1, show sites M T fac x k 1 1 j = some (.ok j1) from b1]
      rfl
    · rw [ho] at a1
      simpa using a1
  | succ n ih =>
    intro j v hi
    obtain ⟨j1, e1, b1, l1, g1, t1, r1, i1, a1⟩ := sites_up cx hk hT hε0 hε fac (N - 1) j k 1 v hi le_rfl (by omega) (by omega)
    obtain ⟨j2, e2, b2, l2, g2, t2, r2, i2, a2⟩ := ih j1 _ i1
    refine ⟨j2, e2, ?_, l2, g2, t2, r2, i2, ?_⟩
    · rw [sweeps1, show sites M T fac x k 1 1 j = some (.ok j1) from b1]
      exact b2
    · rw [ho] at a1
      rw [List.replicate_succ, List.flatten_cons]
      exact a1.trans a2

end loops

/-- The factorizations used by `position` do not enlarge links. -/
structure Small (o : Ops (Site 𝕜)) : Prop where
  left : ∀ a b, a.r = b.l → (o.orthL a b).2.l ≤ b.l
  right : ∀ a b, a.r = b.l → (o.orthR a b).2.l ≤ b.l

theorem position_small {o : Ops (Site 𝕜)} (ho : GaugeOK o) (hs : Small o) {s s' : MPS (Site 𝕜)} (hS : Sound o LO RO s) (h1 : 1 ≤ s.N) (e : position o s 1 = .ok s') :
    ∀ i : Int, (s'.t i).l ≤ (s.t i).l := by
  have lk : ∀ a b, o.link a b = true ↔ a.r = b.l := fun a b => by rw [ho.link]; simp
  have step : ∀ (u : MPS (Site 𝕜)) (b : Int) (p : Site 𝕜 × Site 𝕜), Same (u.t b) (u.t (b + 1)) p → p.2.l ≤ (u.t (b + 1)).l → (∀ i, (u.t i).l ≤ (s.t i).l) →
      ∀ i, ((set2 u b p).t i).l ≤ (s.t i).l := by
    intro u b p hp hl hu i
    change ((put2 u.t b p) i).l ≤ _
    by_cases h : i = b
    · subst h; rw [put2_fst, hp.l]; exact hu _
    · by_cases h' : i = b + 1
      · subst h'; rw [put2_snd]; exact hl.trans (hu _)
      · rw [put2_ne _ _ h h']; exact hu _
  obtain ⟨s2, e2, -, -, -, -, hq⟩ := positionWith_spec (sL := stepL o) (sR := stepR o) (i := 1)
    (Q := fun u => ∀ i, (u.t i).l ≤ (s.t i).l) ho.factor
    (fun s h hl => stepL_eq h hl) (fun s h hl => stepR_eq h hl)
    (fun u h hl hq => by
      have hlo := h.lo
      have hlk := (lk _ _).1 (h.linked (u.l + 1) (by omega) (by omega))
      exact step u (u.l + 1) (o.orthL (u.t (u.l + 1)) (u.t (u.l + 1 + 1))) (ho.left _ _ hlk).1 (hs.left _ _ hlk) hq)
    (fun u h hr hq => by
      have hhi := h.hi
      have hlk := (lk _ _).1 (h.linked (u.r - 2) (by omega) (by omega))
      exact step u (u.r - 2) (o.orthR (u.t (u.r - 2)) (u.t (u.r - 2 + 1))) (ho.right _ _ hlk).1 (hs.right _ _ hlk) hq)
    hS le_rfl (by omega) (fun _ => le_rfl)
  have := e.symm.trans e2
  injection this with this
  rw [this]
  exact hq

/-- The whole calculation. -/
theorem fit1_spec {o : Ops (Site 𝕜)} (ho : GaugeOK o) {M : Mpo 𝕜} {N : Nat} {dd : Int → Nat} {x : Int → Site 𝕜} (cx : Chain N dd x) (hk : M.k N = 1)
    {T : Split1 𝕜} (hT : Split1OK T) {ε : ℝ} (hε0 : 0 ≤ ε) (hε : Near1 T ε) (fac : ℝ) {Kx : MPS (Site 𝕜)} (hr : Reach o LO RO Kx) (hN : Kx.N = N)
    (h1 : 1 ≤ N) (hc : Chain N dd Kx.t) (n : Nat) {fuel : Nat} (hf : 2 * N ≤ fuel) :
    ∃ (y : MPS (Site 𝕜)) (log : List (Entry1 𝕜)) (w : ℝ) (e : Entry1 𝕜), fit1 o M T fac x fuel (n + 1) Kx = some (.ok (y, log)) ∧
      (log.map fun e => (e.s, e.ha)) = (List.replicate (n + 1) (order1 N)).flatten ∧ (∀ e ∈ log, Good1 M N dd fac x e) ∧
      Linked1 (fun e => errOf M N dd fac x e.state) (ε * normSq dd N (target M dd N fac (wave x N))) (errOf M N dd fac x Kx.t) log w ∧
      log.getLast? = some e ∧ y.t = e.state ∧ y.N = N ∧ y.l = 0 ∧ y.r = N + 1 ∧ (∀ i : Int, 1 < i → i ≤ N → RO (y.t i)) ∧
      (Small o → ∀ i : Int, 1 ≤ i → i < N → (y.t i).r ≤ (Kx.t i).r) := by
  have h0 := sound_dag ho (C40_limits ho.factor hr)
  obtain ⟨kx, e1, n1, s1, c1, l1, r1, d1⟩ := position_dist ho cx hk fac h0 hN (chain_dag hc) h1
  have ei := fillE_spec (N := N) M x kx.t 1 N (fun _ _ _ _ => 1) le_rfl (by
    intro i hi
    obtain rfl : i = 0 := by omega
    rfl)
  have hI : Inv1 M N dd fac x (fun i => (kx.t (i + 1)).l) 1 (errOf M N dd fac x Kx.t) ⟨kx, fillE M x kx.t 1 kx.N fun _ _ _ _ => 1, []⟩ := by
    rw [n1]
    have cd : Chain N dd (dagM kx).t := chain_dag c1
    obtain ⟨a1, a2⟩ := chain_dims cd (s := 1) le_rfl (by omega)
    have ps : put1 (dagM kx).t 1 ((dagM kx).t 1) = (dagM kx).t := by unfold put1; rw [Function.update_eq_self]
    refine ⟨n1, l1, by simp only; omega, c1.site 1 le_rfl (by omega), ⟨(dagM kx).t 1, ⟨a1.symm, rfl, a2.symm⟩, ?_, ?_⟩, fun i i1 i2 => absurd i2 (by omega),
      fun i i1 i2 => RO_dag (s1.right i (by omega) (by omega)), fun k hk' => ?_, fun i hi => ?_, fun i i1 i2 => absurd i2 (by omega), fun i i1 i2 => le_rfl⟩
    · rw [ps]; exact cd
    · rw [ps]
      unfold errOf
      rw [d1, dagM_dagM]
    · obtain rfl : k = 0 := by omega
      exact ei.2
    · exact ei.1 i (by omega) (by omega)
  obtain ⟨j, e, b2, l2, g2, t2, r2, i2, log, hlog, hm, hg, hlk⟩ := sweeps1_spec cx hk hT hε0 hε fac h1 hf n _ _ hI
  have hlog' : j.log = log := by rw [hlog]; rfl
  have cy : Chain N dd (dagM j.kx).t := by rw [t2]; exact g2.chain
  refine ⟨dagM j.kx, log, _, e, ?_, hm, hg, hlk, by rw [← hlog']; exact l2, t2, i2.size, i2.l, le_antisymm i2.r r2, fun i i1 i2' => i2.ro i i1 i2', fun hsm i i1 i2' => ?_⟩
  · unfold fit1
    rw [e1]
    dsimp only
    rw [b2]
    dsimp only
    rw [hlog']
  · rw [cy.link i i1 i2']
    refine (i2.rb i i1 i2').trans ((position_small ho hsm h0 (by change 1 ≤ Kx.N; omega) e1 (i + 1)).trans ?_)
    change (Kx.t (i + 1)).l ≤ _
    rw [hc.link i i1 i2']

/-! ## The claims -/

/-- **C86** (best choice). Fitting with one site in the centre, from any initial state in any gauge, ends without error and treats each site
in each half sweep. The tensor computed at a site is the best for this site: no other tensor there gives a state closer to `fac*K*x`.
The square of the distance is the square of the norm of `fac*K*x` minus that of the state. The result can be further away than the
initial state only by what was truncated in all rounds. Its tensors at sites 2 to `N` are right orthogonal, though its limits do not
say so. -/
theorem C86_best_partial {o : Ops (Site 𝕜)} (ho : GaugeOK o) {M : Mpo 𝕜} {N : Nat} {dd : Int → Nat} {x : Int → Site 𝕜} (cx : Chain N dd x) (hk : M.k N = 1)
    {T : Split1 𝕜} (hT : Split1OK T) {ε : ℝ} (hε0 : 0 ≤ ε) (hε : Near1 T ε) (fac : ℝ) {Kx : MPS (Site 𝕜)} (hr : Reach o LO RO Kx) (hN : Kx.N = N)
    (h1 : 1 ≤ N) (hc : Chain N dd Kx.t) {n : Nat} (hn : 1 ≤ n) {fuel : Nat} (hf : 2 * N ≤ fuel) :
    ∃ y log, fit1 o M T fac x fuel n Kx = some (.ok (y, log)) ∧ (log.map fun e => (e.s, e.ha)) = (List.replicate n (order1 N)).flatten ∧
      (∀ e ∈ log, ∀ A, Fit1 N e.before e.s A → distSq dd N (target M dd N fac (wave x N)) (wave (put1 e.before e.s e.P) N) ≤
        distSq dd N (target M dd N fac (wave x N)) (wave (put1 e.before e.s A) N)) ∧
      distSq dd N (target M dd N fac (wave x N)) (wave y.t N) ≤
        distSq dd N (target M dd N fac (wave x N)) (wave Kx.t N) + log.length * (ε * normSq dd N (target M dd N fac (wave x N))) ∧
      distSq dd N (target M dd N fac (wave x N)) (wave y.t N) = normSq dd N (target M dd N fac (wave x N)) - normSq dd N (wave y.t N) ∧
      y.N = N ∧ Chain N dd y.t ∧ y.l = 0 ∧ y.r = N + 1 ∧ ∀ i : Int, 2 ≤ i → i ≤ N → RO (y.t i) := by
  obtain ⟨n, rfl⟩ : ∃ k, n = k + 1 := ⟨n - 1, by omega⟩
  obtain ⟨y, log, w, e, he, hm, hg, hl, hlast, hy, n', l', r', ro, -⟩ := fit1_spec ho cx hk hT hε0 hε fac hr hN h1 hc n hf
  have hmem := List.mem_of_getLast? hlast
  have ge := hg e hmem
  refine ⟨y, log, he, hm, fun e he => (hg e he).best, ?_, ?_, n', ?_, l', r', fun i i1 i2 => ro i (by omega) i2⟩
  · rw [hy]
    exact linked1_le (mul_nonneg hε0 (normSq_nonneg _ _ _)) hl e hmem
  · rw [hy]; exact ge.norm
  · rw [hy]; exact ge.chain

/-- **C86** (monotone). When nothing is truncated the distance from `fac*K*x` never grows, from round to round and so from sweep to
sweep; the last state is the result. -/
theorem C86_monotone_partial {o : Ops (Site 𝕜)} (ho : GaugeOK o) {M : Mpo 𝕜} {N : Nat} {dd : Int → Nat} {x : Int → Site 𝕜} (cx : Chain N dd x) (hk : M.k N = 1)
    {T : Split1 𝕜} (hT : Split1OK T) (hε : Near1 T 0) (fac : ℝ) {Kx : MPS (Site 𝕜)} (hr : Reach o LO RO Kx) (hN : Kx.N = N)
    (h1 : 1 ≤ N) (hc : Chain N dd Kx.t) {n : Nat} (hn : 1 ≤ n) {fuel : Nat} (hf : 2 * N ≤ fuel) :
    ∃ y log, fit1 o M T fac x fuel n Kx = some (.ok (y, log)) ∧
      (log.map fun e => distSq dd N (target M dd N fac (wave x N)) (wave (put1 e.before e.s e.P) N)).Pairwise (fun a b => b ≤ a) ∧
      (∀ e ∈ log, distSq dd N (target M dd N fac (wave x N)) (wave (put1 e.before e.s e.P) N) ≤ distSq dd N (target M dd N fac (wave x N)) (wave Kx.t N)) ∧
      ∃ e, log.getLast? = some e ∧ y.t = put1 e.before e.s e.P := by
  obtain ⟨n, rfl⟩ : ∃ k, n = k + 1 := ⟨n - 1, by omega⟩
  obtain ⟨y, log, w, e, he, hm, hg, hl, hlast, hy, -⟩ := fit1_spec ho cx hk hT le_rfl hε fac hr hN h1 hc n hf
  rw [zero_mul] at hl
  refine ⟨y, log, he, linked1_mono hl, fun e' he' => ?_, e, hlast, hy⟩
  have := linked1_le le_rfl hl e' he'
  rw [mul_zero, add_zero] at this
  exact this

/-- **C86** (links). No link of the result is larger than that of the initial state. -/
theorem C86_links_partial {o : Ops (Site 𝕜)} (ho : GaugeOK o) (hs : Small o) {M : Mpo 𝕜} {N : Nat} {dd : Int → Nat} {x : Int → Site 𝕜} (cx : Chain N dd x) (hk : M.k N = 1)
    {T : Split1 𝕜} (hT : Split1OK T) {ε : ℝ} (hε0 : 0 ≤ ε) (hε : Near1 T ε) (fac : ℝ) {Kx : MPS (Site 𝕜)} (hr : Reach o LO RO Kx) (hN : Kx.N = N)
    (h1 : 1 ≤ N) (hc : Chain N dd Kx.t) {n : Nat} (hn : 1 ≤ n) {fuel : Nat} (hf : 2 * N ≤ fuel) :
    ∃ y log, fit1 o M T fac x fuel n Kx = some (.ok (y, log)) ∧ Chain N dd y.t ∧ ∀ i : Int, 1 ≤ i → i < N → (y.t i).r ≤ (Kx.t i).r := by
  obtain ⟨n, rfl⟩ : ∃ k, n = k + 1 := ⟨n - 1, by omega⟩
  obtain ⟨y, log, w, e, he, hm, hg, hl, hlast, hy, n', l', r', ro, hb⟩ := fit1_spec ho cx hk hT hε0 hε fac hr hN h1 hc n hf
  exact ⟨y, log, he, by rw [hy]; exact (hg e (List.mem_of_getLast? hlast)).chain, hb hs⟩

/-- **C86** (one site). For a single site the result is `fac*K*x`. -/
theorem C86_single {o : Ops (Site 𝕜)} (ho : GaugeOK o) {M : Mpo 𝕜} {dd : Int → Nat} {x : Int → Site 𝕜} (cx : Chain 1 dd x) (hk : M.k 1 = 1)
    {T : Split1 𝕜} (hT : Split1OK T) {ε : ℝ} (hε0 : 0 ≤ ε) (hε : Near1 T ε) (fac : ℝ) {Kx : MPS (Site 𝕜)} (hr : Reach o LO RO Kx) (hN : Kx.N = 1)
    (hc : Chain 1 dd Kx.t) {n : Nat} (hn : 1 ≤ n) {fuel : Nat} (hf : 2 ≤ fuel) :
    ∃ y log, fit1 o M T fac x fuel n Kx = some (.ok (y, log)) ∧ ∀ σ : Int → Nat, σ 1 < dd 1 → wave y.t 1 σ = target M dd 1 fac (wave x 1) σ := by
  obtain ⟨n, rfl⟩ : ∃ k, n = k + 1 := ⟨n - 1, by omega⟩
  obtain ⟨y, log, w, e, he, hm, hg, hl, hlast, hy, -⟩ := fit1_spec ho cx hk hT hε0 hε fac hr hN le_rfl hc n hf
  refine ⟨y, log, he, ?_⟩
  have hmem := List.mem_of_getLast? hlast
  have ge := hg e hmem
  have hs : e.s = 1 := by
    have : (e.s, e.ha) ∈ log.map fun e => (e.s, e.ha) := List.mem_map_of_mem hmem
    rw [hm, List.mem_flatten] at this
    obtain ⟨l, h1, h2⟩ := this
    rw [(List.mem_replicate.1 h1).2] at h2
    simp [order1] at h2
    rcases h2 with h2 | h2 <;> exact h2.1
  have c1 := ge.chain
  obtain ⟨a1, a2⟩ := dims_put1 1 e.before e.s e.P
  obtain ⟨a3, a4⟩ := chain_dims c1 (s := e.s) (by omega) (by omega)
  set A : Site 𝕜 := ⟨1, (e.before e.s).d, 1, fun _ s _ => target M dd 1 fac (wave x 1) fun _ => s⟩ with hA
  have fA : Fit1 1 e.before e.s A := ⟨by rw [hs]; rfl, rfl, by rw [hs]; rfl⟩
  have hb := ge.best A fA
  have dep : ∀ σ, target M dd 1 fac (wave x 1) σ = target M dd 1 fac (wave x 1) fun _ => σ 1 := by
    intro σ; simp [target, sumCfg, elem, hop]
  have h0 : errOf M 1 dd fac x (put1 e.before e.s A) = 0 := by
    unfold errOf distSq normSq
    rw [hs]
    simp only [sumCfg]
    refine sum_eq_zero fun s _ => ?_
    rw [dep]
    simp [wave, amp, put1, hA]
  rw [h0] at hb
  have h1 : errOf M 1 dd fac x e.state = 0 := le_antisymm hb (normSq_nonneg _ _ _)
  unfold errOf distSq normSq at h1
  simp only [sumCfg] at h1
  rw [sum_eq_zero_iff_of_nonneg fun _ _ => sq_nonneg _] at h1
  intro σ hσ
  have := h1 (σ 1) (by simpa using hσ)
  rw [sq_eq_zero_iff, norm_eq_zero, sub_eq_zero, dep] at this
  rw [dep σ, hy]
  have e2 : wave e.state 1 σ = wave e.state 1 (Function.update (fun _ => 0) (((0 : Nat) : Int) + 1) (σ 1)) := by simp [wave, amp]
  rw [e2, ← this]
  simp

/-! ## Factorizations -/

/-- Orthonormal vectors of which the given ones are combinations. -/
theorem exists_basis {ι : Type*} [Fintype ι] (r : Nat) (y : Fin r → EuclideanSpace 𝕜 ι) :
    ∃ (k : Nat) (b : Fin k → EuclideanSpace 𝕜 ι), k ≤ r ∧ Orthonormal 𝕜 b ∧ ∀ c, y c = ∑ m, inner 𝕜 (b m) (y c) • b m := by
  set S := Submodule.span 𝕜 (Set.range y) with hS
  have hk : Module.finrank 𝕜 S ≤ r := by
    have := finrank_range_le_card (R := 𝕜) y
    rw [Fintype.card_fin] at this
    exact this
  let b := stdOrthonormalBasis 𝕜 S
  refine ⟨Module.finrank 𝕜 S, fun m => (b m : EuclideanSpace 𝕜 ι), hk, ?_, fun c => ?_⟩
  · exact b.orthonormal.comp_linearIsometry S.subtypeₗᵢ
  · have hy : y c ∈ S := Submodule.subset_span ⟨c, rfl⟩
    have := congrArg (fun z : S => (z : EuclideanSpace 𝕜 ι)) (b.sum_repr' ⟨y c, hy⟩)
    simp only [Submodule.coe_sum, Submodule.coe_smul] at this
    exact this.symm

/-- Exact factorizations with the smallest possible link. -/
theorem exists_left (l d r : Nat) (y : Block1 𝕜 l d r) : ∃ V : Site 𝕜, V.l = l ∧ V.d = d ∧ V.r ≤ r ∧ LO V ∧ ∃ C : Nat → Nat → 𝕜, bl1 l d r (mulR V C r) = y := by
  obtain ⟨k, b, hk, hb, hy⟩ := exists_basis r fun c => (WithLp.toLp 2 fun i : Fin l × Fin d => y (i.1, i.2, c) : EuclideanSpace 𝕜 (Fin l × Fin d))
  refine ⟨⟨l, d, k, fun a s m => if h : a < l ∧ s < d ∧ m < k then b ⟨m, h.2.2⟩ (⟨a, h.1⟩, ⟨s, h.2.1⟩) else 0⟩, rfl, rfl, hk, ?_,
    fun m c => if h : m < k ∧ c < r then inner 𝕜 (b ⟨m, h.1⟩) (WithLp.toLp 2 fun i : Fin l × Fin d => y (i.1, i.2, ⟨c, h.2⟩) : EuclideanSpace 𝕜 (Fin l × Fin d)) else 0, ?_⟩
  · intro m' hm' m hm
    have := orthonormal_iff_ite.1 hb ⟨m', hm'⟩ ⟨m, hm⟩
    rw [PiLp.inner_apply, Fintype.sum_prod_type] at this
    simp only [Finset.sum_range]
    have hif : (if m' = m then (1 : 𝕜) else 0) = if (⟨m', hm'⟩ : Fin k) = ⟨m, hm⟩ then 1 else 0 := by simp only [Fin.mk.injEq]
    rw [hif, ← this]
    refine sum_congr rfl fun a _ => sum_congr rfl fun s _ => ?_
    dsimp only at hm hm' ⊢
    rw [dif_pos ⟨a.2, s.2, hm'⟩, dif_pos ⟨a.2, s.2, hm⟩, RCLike.inner_apply, mul_comm]
  · ext ⟨a, s, c⟩
    have := congrArg (fun z : EuclideanSpace 𝕜 (Fin l × Fin d) => z (a, s)) (hy c)
    dsimp only at this
    simp only [bl1, mulR]
    rw [this, Finset.sum_range]
    simp only [WithLp.ofLp_sum, Finset.sum_apply, WithLp.ofLp_smul, Pi.smul_apply, smul_eq_mul]
    refine sum_congr rfl fun m _ => ?_
    rw [dif_pos ⟨a.2, s.2, m.2⟩, dif_pos ⟨m.2, c.2⟩, mul_comm]

theorem exists_right (l d r : Nat) (y : Block1 𝕜 l d r) : ∃ V : Site 𝕜, V.l ≤ l ∧ V.d = d ∧ V.r = r ∧ RO V ∧ ∃ C : Nat → Nat → 𝕜, bl1 l d r (mulL C V l) = y := by
  obtain ⟨V, h1, h2, h3, h4, C, h5⟩ := exists_left r d l (WithLp.toLp 2 fun i : Pl1 r d l => y (i.2.2, i.2.1, i.1))
  refine ⟨⟨V.r, V.d, V.l, fun a s c => V.A c s a⟩, h3, h2, h1, h4, fun a m => C m a, ?_⟩
  ext ⟨a, s, c⟩
  have := congrArg (fun z : Block1 𝕜 r d l => z (c, s, a)) h5
  simp only [bl1, mulR] at this
  simp only [bl1, mulL]
  rw [← this]
  exact sum_congr rfl fun _ _ => mul_comm _ _

theorem exists_split1 : ∃ T : Split1 𝕜, Split1OK T ∧ Near1 T 0 := by
  choose VL l1 l2 l3 l4 l5 using fun l d r (y : Block1 𝕜 l d r) => exists_left l d r y
  choose VR r1 r2 r3 r4 r5 using fun l d r (y : Block1 𝕜 l d r) => exists_right l d r y
  refine ⟨fun _ dir l d r y => match dir with | .left => VL l d r y | .right => VR l d r y, ⟨fun n l d r y => ⟨l1 .., l2 .., l3 .., l4 _ _ _ _⟩,
    fun n l d r y => ⟨r1 .., r2 .., r3 .., r4 _ _ _ _⟩⟩, ⟨fun n l d r y => ?_, fun n l d r y => ?_⟩⟩
  · obtain ⟨C, h⟩ := l5 l d r y
    exact ⟨C, by simp [h]⟩
  · obtain ⟨C, h⟩ := r5 l d r y
    exact ⟨C, by simp [h]⟩

theorem exists_small : ∃ o : Ops (Site 𝕜), GaugeOK o ∧ Small o := by
  choose VL l1 l2 l3 l4 CL l5 using fun l d r (y : Block1 𝕜 l d r) => exists_left l d r y
  choose VR r1 r2 r3 r4 CR r5 using fun l d r (y : Block1 𝕜 l d r) => exists_right l d r y
  have kl : ∀ (a : Site 𝕜) i, i < a.l → ∀ s, s < a.d → ∀ c, c < a.r → (mulR (VL _ _ _ (bl1 a.l a.d a.r a)) (CL _ _ _ (bl1 a.l a.d a.r a)) a.r).A i s c = a.A i s c := by
    intro a i hi s hs c hc
    exact congrArg (fun z : Block1 𝕜 a.l a.d a.r => z (⟨i, hi⟩, ⟨s, hs⟩, ⟨c, hc⟩)) (l5 _ _ _ (bl1 a.l a.d a.r a))
  have kr : ∀ (a : Site 𝕜) i, i < a.l → ∀ s, s < a.d → ∀ c, c < a.r → (mulL (CR _ _ _ (bl1 a.l a.d a.r a)) (VR _ _ _ (bl1 a.l a.d a.r a)) a.l).A i s c = a.A i s c := by
    intro a i hi s hs c hc
    exact congrArg (fun z : Block1 𝕜 a.l a.d a.r => z (⟨i, hi⟩, ⟨s, hs⟩, ⟨c, hc⟩)) (r5 _ _ _ (bl1 a.l a.d a.r a))
  refine ⟨⟨fun a b => decide (a.r = b.l), fun a b => (VL _ _ _ (bl1 a.l a.d a.r a), mulL (CL _ _ _ (bl1 a.l a.d a.r a)) b (VL _ _ _ (bl1 a.l a.d a.r a)).r),
    fun a b => (mulR a (CR _ _ _ (bl1 b.l b.d b.r b)) (VR _ _ _ (bl1 b.l b.d b.r b)).l, VR _ _ _ (bl1 b.l b.d b.r b))⟩, ⟨fun _ _ => rfl, fun a b e => ⟨⟨?_, ?_, rfl, rfl, rfl, ?_⟩, ?_⟩,
    fun a b e => ⟨⟨rfl, rfl, rfl, ?_, ?_, ?_⟩, ?_⟩⟩, ⟨fun a b e => ?_, fun a b e => ?_⟩⟩
  · exact l1 ..
  · exact l2 ..
  · intro i hi s₁ h1 s₂ h2 k hk
    simp only [bval]
    have : ∀ c ∈ range a.r, a.A i s₁ c * b.A c s₂ k = (mulR (VL _ _ _ (bl1 a.l a.d a.r a)) (CL _ _ _ (bl1 a.l a.d a.r a)) a.r).A i s₁ c * b.A c s₂ k :=
      fun c hc => by rw [kl a i hi s₁ h1 c (by simpa using hc)]
    rw [sum_congr rfl this]
    simp only [mulL, mulR, mul_sum, sum_mul]
    rw [sum_comm, e]
    exact sum_congr rfl fun _ _ => sum_congr rfl fun _ _ => by ring
  · exact l4 _ _ _ _
  · exact r2 ..
  · exact r3 ..
  · intro i hi s₁ h1 s₂ h2 k hk
    simp only [bval]
    have : ∀ c ∈ range a.r, a.A i s₁ c * b.A c s₂ k = a.A i s₁ c * (mulL (CR _ _ _ (bl1 b.l b.d b.r b)) (VR _ _ _ (bl1 b.l b.d b.r b)) b.l).A c s₂ k :=
      fun c hc => by rw [kr b c (by have := mem_range.1 hc; omega) s₂ h2 k hk]
    rw [sum_congr rfl this]
    simp only [mulL, mulR, mul_sum, sum_mul]
    rw [sum_comm]
    exact sum_congr rfl fun _ _ => sum_congr rfl fun _ _ => by ring
  · exact r4 _ _ _ _
  · exact (l3 ..).trans e.le
  · exact r1 ..

/-! ## The links cannot grow -/

/-- Two spins which are always equal. -/
def pair : Int → Site 𝕜 := fun i => if i ≤ 1 then ⟨1, 2, 2, fun _ s c => if s = c then 1 else 0⟩ else ⟨2, 2, 1, fun a s _ => if a = s then 1 else 0⟩

theorem pair_chain : Chain 2 (fun _ => 2) (pair (𝕜 := 𝕜)) := by
  refine ⟨rfl, rfl, fun i _ _ => by unfold pair; split <;> rfl, fun i h1 h2 => ?_⟩
  obtain rfl : i = 1 := by push_cast at h2; omega
  rfl

/-- The claim that with enough sweeps and no truncation the result is `fac*K*x` is false: started from a product state fitting with one site
never reaches a state which is not one. -/
theorem C86_reach_counterexample {o : Ops (Site 𝕜)} (ho : GaugeOK o) (hs : Small o) {T : Split1 𝕜} (hT : Split1OK T) (hε : Near1 T 0) {n : Nat} (hn : 1 ≤ n) :
    ∃ y log, fit1 o idM T 1 pair 4 n ⟨2, fun _ => exSite, 0, 3⟩ = some (.ok (y, log)) ∧
      ¬ ∀ σ : Int → Nat, σ 1 < 2 → σ 2 < 2 → wave y.t 2 σ = target idM (fun _ => 2) 2 1 (wave pair 2) σ := by
  have hr : Reach o LO RO (⟨2, fun _ => exSite (𝕜 := 𝕜), 0, 3⟩ : MPS (Site 𝕜)) := Reach.init 2 _ (by decide) fun _ _ _ => by simp [ho.link, exSite]
  have hc : Chain 2 (fun _ => 2) (fun _ => exSite (𝕜 := 𝕜)) := ⟨rfl, rfl, fun _ _ _ => rfl, fun _ _ _ => rfl⟩
  obtain ⟨y, log, e, cy, hl⟩ := C86_links_partial (M := idM) ho hs pair_chain rfl hT le_rfl hε 1 hr rfl (by decide) hc hn (fuel := 4) (by decide)
  refine ⟨y, log, e, fun h => ?_⟩
  have hd : (y.t 2).l ≤ 1 := by
    have h1 := hl 1 le_rfl (by decide)
    have h2 := cy.link 1 le_rfl (by decide)
    have h3 : ((1 : Int) + 1) = 2 := rfl
    rw [h3] at h2
    rw [← h2]
    exact h1
  have hw : ∃ f g : Nat → 𝕜, ∀ σ, wave y.t 2 σ = f (σ 1) * g (σ 2) := by
    have e1 : ∀ σ, wave y.t 2 σ = ∑ a ∈ range (y.t 2).l, amp y.t 1 σ a * (y.t 2).A a (σ 2) 0 := fun σ => rfl
    have e2 : ∀ σ a, amp y.t 1 σ a = ∑ b ∈ range (y.t 1).l, (y.t 1).A b (σ 1) a := fun σ a => by simp [amp]
    interval_cases hq : (y.t 2).l
    · exact ⟨fun _ => 0, fun _ => 0, fun σ => by rw [e1]; simp⟩
    · exact ⟨fun s => ∑ b ∈ range (y.t 1).l, (y.t 1).A b s 0, fun s => (y.t 2).A 0 s 0, fun σ => by rw [e1]; simp [e2]⟩
  obtain ⟨f, g, hfg⟩ := hw
  have ht : ∀ i j, i < 2 → j < 2 → target idM (fun _ => 2) 2 1 (wave (pair (𝕜 := 𝕜)) 2) (fun k => if k = 1 then i else j) = if i = j then 1 else 0 := by
    intro i j hi hj
    interval_cases i <;> interval_cases j <;>
      simp [target, sumCfg, elem, hop, idM, wave, amp, pair, Finset.sum_range_succ, Function.update]
  have hv : ∀ i j, i < 2 → j < 2 → f i * g j = if i = j then 1 else 0 := by
    intro i j hi hj
    have := h (fun k => if k = 1 then i else j) (by simpa using hi) (by simpa using hj)
    rw [hfg, ht i j hi hj] at this
    simpa using this
  have h00 := hv 0 0 (by decide) (by decide)
  have h01 := hv 0 1 (by decide) (by decide)
  have h11 := hv 1 1 (by decide) (by decide)
  simp only [if_true, show ¬ ((0 : Nat) = 1) by decide, if_false] at h00 h01 h11
  rcases mul_eq_zero.1 h01 with h | h
  · rw [h, zero_mul] at h00; exact zero_ne_one h00
  · rw [h, mul_zero] at h11; exact zero_ne_one h11

/-! ## The hypotheses can be met -/

example : ∃ (o : Ops (Site ℂ)) (T : Split1 ℂ), GaugeOK o ∧ Small o ∧ Split1OK T ∧ Near1 T 0 := by
  obtain ⟨o, h1, h2⟩ := exists_small (𝕜 := ℂ)
  obtain ⟨T, h3, h4⟩ := exists_split1 (𝕜 := ℂ)
  exact ⟨o, T, h1, h2, h3, h4⟩

/-- Four spins, three sweeps, started from `x`. -/
example : ∃ (T : Split1 ℂ) (y : MPS (Site ℂ)) (log : List (Entry1 ℂ)),
    fit1 exOps exM T 2 (fun _ => exSite) 8 3 ⟨4, fun _ => exSite, 0, 5⟩ = some (.ok (y, log)) ∧ log.length = 24 ∧
      distSq (fun _ => 2) 4 (target exM (fun _ => 2) 4 2 (wave (fun _ => exSite) 4)) (wave y.t 4) ≤
        distSq (fun _ => 2) 4 (target exM (fun _ => 2) 4 2 (wave (fun _ => exSite) 4)) (wave (fun _ => exSite (𝕜 := ℂ)) 4) := by
  obtain ⟨T, h3, h4⟩ := exists_split1 (𝕜 := ℂ)
  have hr : Reach exOps LO RO (⟨4, fun _ => exSite (𝕜 := ℂ), 0, 5⟩ : MPS (Site ℂ)) := Reach.init 4 _ (by decide) fun _ _ _ => by simp [exOps, exSite]
  have hc : Chain 4 (fun _ => 2) (fun _ => exSite (𝕜 := ℂ)) := ⟨rfl, rfl, fun _ _ _ => rfl, fun _ _ _ => rfl⟩
  obtain ⟨y, log, e, hm, -, hd, -⟩ := C86_best_partial (M := exM) exOps_ok hc rfl h3 le_rfl h4 2 hr rfl (by decide) hc (n := 3) (by decide)
    (fuel := 8) (by decide)
  refine ⟨T, y, log, e, ?_, by simpa using hd⟩
  have := congrArg List.length hm
  rw [List.length_map] at this
  rw [this]
  decide

end Verif.FitOne
