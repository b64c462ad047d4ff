import Verif.MPS.FitOneProps

/-! # C86: fitting with one site in the centre -/

noncomputable section

namespace Verif.FitOne

open Finset Verif.Limits Verif.DmrgNum Verif.FitApply

variable {𝕜 : Type*} [RCLike 𝕜]

/-- The factor `V` of a singular value decomposition: it is orthogonal and the new link is not larger than the one it replaces. -/
structure Split1OK (T : Split1 𝕜) : Prop where
  left : ∀ n l d r y, let V := T n .left l d r y
    V.l = l ∧ V.d = d ∧ V.r ≤ r ∧ LO V
  right : ∀ n l d r y, let V := T n .right l d r y
    V.l ≤ l ∧ V.d = d ∧ V.r = r ∧ RO V

/-- The tensor with a matrix multiplied to its right, and to its left. -/
def mulR (V : Site 𝕜) (C : Nat → Nat → 𝕜) (r : Nat) : Site 𝕜 := ⟨V.l, V.d, r, fun a s c => ∑ m ∈ range V.r, V.A a s m * C m c⟩

def mulL (C : Nat → Nat → 𝕜) (V : Site 𝕜) (l : Nat) : Site 𝕜 := ⟨l, V.d, V.r, fun a s c => ∑ m ∈ range V.l, C a m * V.A m s c⟩

/-- What is thrown away is at most the part `ε` of the tensor factorized. -/
structure Near1 (T : Split1 𝕜) (ε : ℝ) : Prop where
  left : ∀ n l d r y, ∃ C : Nat → Nat → 𝕜, ‖bl1 l d r (mulR (T n .left l d r y) C r) - y‖ ^ 2 ≤ ε * ‖y‖ ^ 2
  right : ∀ n l d r y, ∃ C : Nat → Nat → 𝕜, ‖bl1 l d r (mulL C (T n .right l d r y) l) - y‖ ^ 2 ≤ ε * ‖y‖ ^ 2

/-- The square of the distance of the state from `fac*K*x` when the round has computed `P`. -/
def errOf (M : Mpo 𝕜) (N : Nat) (dd : Int → Nat) (fac : ℝ) (x : Int → Site 𝕜) (t : Int → Site 𝕜) : ℝ :=
  distSq dd N (target M dd N fac (wave x N)) (wave t N)

/-- The state of a round: `P` in the centre. -/
def Entry1.state (e : Entry1 𝕜) : Int → Site 𝕜 := put1 e.before e.s e.P

/-- One round. -/
structure Good1 (M : Mpo 𝕜) (N : Nat) (dd : Int → Nat) (fac : ℝ) (x : Int → Site 𝕜) (e : Entry1 𝕜) : Prop where
  chain : Chain N dd e.state
  best : ∀ A, Fit1 N e.before e.s A → errOf M N dd fac x e.state ≤ errOf M N dd fac x (put1 e.before e.s A)
  norm : errOf M N dd fac x e.state = normSq dd N (target M dd N fac (wave x N)) - normSq dd N (wave e.state N)

/-- What holds before site `s` is treated; the tensor at `s` itself does not matter. -/
structure Inv1 (M : Mpo 𝕜) (N : Nat) (dd : Int → Nat) (fac : ℝ) (x : Int → Site 𝕜) (L : Int → Nat) (s : Int) (v : ℝ) (j : Job1 𝕜) : Prop where
  size : j.kx.N = N
  l : j.kx.l = 0
  r : j.kx.r ≤ N + 1
  site : (j.kx.t s).d = dd s
  chain : ∃ A, Fit1 N (dagM j.kx).t s A ∧ Chain N dd (put1 (dagM j.kx).t s A) ∧ errOf M N dd fac x (put1 (dagM j.kx).t s A) ≤ v
  lo : ∀ i : Int, 1 ≤ i → i < s → LO ((dagM j.kx).t i)
  ro : ∀ i : Int, s < i → i ≤ N → RO ((dagM j.kx).t i)
  left : ∀ n : Nat, (n : Int) ≤ s - 1 → j.E n = lv M (dagM j.kx).t x n
  right : ∀ i : Nat, s + 1 ≤ (N : Int) + 1 - i → j.E (N + 1 - i) = rv M N (dagM j.kx).t x i
  lb : ∀ i : Int, 1 ≤ i → i < s → ((dagM j.kx).t i).r ≤ L i
  rb : ∀ i : Int, s ≤ i → i < N → ((dagM j.kx).t (i + 1)).l ≤ L i

theorem dagM_put (s : MPS (Site 𝕜)) (i : Int) (V : Site 𝕜) (l r : Int) : (dagM (⟨s.N, Function.update s.t i (dag V), l, r⟩ : MPS (Site 𝕜))).t = put1 (dagM s).t i V := by
  funext k
  by_cases h : k = i
  · subst h; simp [dagM, put1, dag_dag]
  · simp [dagM, put1, h]

theorem put1_put2 (t : Int → Site 𝕜) (b : Int) (A B : Site 𝕜) : put1 (put1 t b A) (b + 1) B = put2 t b (A, B) := rfl

theorem put1_put2' (t : Int → Site 𝕜) (b : Int) (A B : Site 𝕜) : put1 (put1 t (b + 1) B) b A = put2 t b (A, B) := by
  unfold put1 put2
  rw [Function.update_comm (by omega)]

/-- A round of the loop. -/
theorem round_spec {M : Mpo 𝕜} {N : Nat} {dd : Int → Nat} {x : Int → Site 𝕜} (cx : Chain N dd x) (hk : M.k N = 1) {T : Split1 𝕜} (hT : Split1OK T)
    {ε : ℝ} (hε0 : 0 ≤ ε) (hε : Near1 T ε) (fac : ℝ) {L : Int → Nat} {j : Job1 𝕜} {s ha : Int} {v : ℝ} (hi : Inv1 M N dd fac x L s v j) (h1 : 1 ≤ s) (h2 : s ≤ N)
    (hh : ha = 1 ∨ ha = 2) :
    ∃ j' e, body1 M T fac x j s ha = .ok j' ∧ j'.log = j.log ++ [e] ∧ e.s = s ∧ e.ha = ha ∧ Good1 M N dd fac x e ∧ errOf M N dd fac x e.state ≤ v ∧
      (ha = 1 → s < N → Inv1 M N dd fac x L (s + 1) (errOf M N dd fac x e.state + ε * normSq dd N (target M dd N fac (wave x N))) j') ∧
      (ha = 2 → 1 < s → Inv1 M N dd fac x L (s - 1) (errOf M N dd fac x e.state + ε * normSq dd N (target M dd N fac (wave x N))) j') ∧
      ((ha = 1 ∧ s = N) ∨ (ha = 2 ∧ s = 1) → Inv1 M N dd fac x L s (errOf M N dd fac x e.state) j' ∧ (dagM j'.kx).t = e.state) ∧
      j'.kx.N = N ∧ j.kx.r ≤ j'.kx.r ∧ s + 1 ≤ j'.kx.r := by
  have hN := hi.size
  obtain ⟨n, rfl⟩ : ∃ n : Nat, s = (n : Int) + 1 := ⟨(s - 1).toNat, by omega⟩
  obtain ⟨m, hm⟩ : ∃ m, n + 1 + m = N := ⟨N - (n + 1), by omega⟩
  set t := (dagM j.kx).t with ht
  have hd : (t ((n : Int) + 1)).d = dd (n + 1) := hi.site
  have eL : j.E ((n : Int) + 1 - 1) = lv M t x n := by
    rw [show (n : Int) + 1 - 1 = n by ring]; exact hi.left n (by omega)
  have eR : j.E ((n : Int) + 1 + 1) = rv M N t x m := by
    rw [show (n : Int) + 1 + 1 = N + 1 - m by omega]; exact hi.right m (by omega)
  have hl : ∀ i : Int, 1 ≤ i → i ≤ n → LO (t i) := fun i i1 i2 => hi.lo i i1 (by omega)
  have hr : ∀ i : Int, (n : Int) + 2 ≤ i → i ≤ N → RO (t i) := fun i i1 i2 => hi.ro i (by omega) i2
  obtain ⟨A₀, f0, c0, v0⟩ := hi.chain
  set l := dimL t ((n : Int) + 1) with hl'
  set d := (t ((n : Int) + 1)).d with hd'
  set r := dimR N t ((n : Int) + 1) with hr'
  set P := wf1 M N fac t x n m l d r with hP
  have fP : Fit1 N t ((n : Int) + 1) (toSite P) := ⟨rfl, rfl, rfl⟩
  have ch : ∀ {A}, Fit1 N t ((n : Int) + 1) A → Chain N dd (put1 t (n + 1) A) := fun f => chain_put1 c0 h1 h2 f hd
  have er : ∀ {A}, Fit1 N t ((n : Int) + 1) A → errOf M N dd fac x (put1 t (n + 1) A) =
      ‖bl1 l d r A - P‖ ^ 2 + (normSq dd N (target M dd N fac (wave x N)) - ‖P‖ ^ 2) := by
    intro A f
    obtain ⟨fl, fd, fr⟩ := f
    have := dist_put1 (A := A) (ch ⟨fl, fd, fr⟩) cx hk hm hl hr fac
    rw [hP, hl', hd', hr', ← fl, ← fd, ← fr]
    exact this
  have eP : errOf M N dd fac x (put1 t (n + 1) (toSite P)) = normSq dd N (target M dd N fac (wave x N)) - ‖P‖ ^ 2 := by
    rw [er fP, bl1_toSite, sub_self, norm_zero]; ring
  have hle : ‖P‖ ^ 2 ≤ normSq dd N (target M dd N fac (wave x N)) := by
    have h0 : 0 ≤ errOf M N dd fac x (put1 t (n + 1) (toSite P)) := normSq_nonneg _ _ _
    linarith
  have hC : ε * ‖P‖ ^ 2 ≤ ε * normSq dd N (target M dd N fac (wave x N)) := mul_le_mul_of_nonneg_left hle hε0
  have hbest : ∀ A, Fit1 N t ((n : Int) + 1) A → errOf M N dd fac x (put1 t (n + 1) (toSite P)) ≤ errOf M N dd fac x (put1 t (n + 1) A) := by
    intro A f
    rw [eP, er f]
    have := sq_nonneg ‖bl1 l d r A - P‖
    linarith
  have hgood : Good1 M N dd fac x ⟨(n : Int) + 1, ha, t, toSite P⟩ := by
    refine ⟨ch fP, hbest, ?_⟩
    change errOf M N dd fac x (put1 t (n + 1) (toSite P)) = _ - normSq dd N (wave (put1 t (n + 1) (toSite P)) N)
    have hn : normSq dd N (wave (put1 t (n + 1) (toSite P)) N) = ‖bl1 l d r (toSite P)‖ ^ 2 := norm_eq1 (ch fP) hm hl hr
    rw [eP, hn, bl1_toSite]
  -- what the code computes
  have code : ∀ V : Site 𝕜, ∃ kx, Limits.set j.kx ((n : Int) + 1) (dag V) = .ok kx ∧ kx.N = N ∧ kx.l = 0 ∧ kx.r ≤ N + 1 ∧ j.kx.r ≤ kx.r ∧ (n : Int) + 1 + 1 ≤ kx.r ∧
      (dagM kx).t = put1 t (n + 1) V ∧ kx.t (n + 1) = dag V := by
    intro V
    unfold Limits.set ref
    have hneg : ¬ ((n : Int) + 1 < 0) := by omega
    simp only [hneg, if_false]
    rw [if_pos (by rw [hN]; omega)]
    have il := hi.l
    have ir := hi.r
    refine ⟨_, rfl, hN, ?_, ?_, ?_, ?_, ?_, ?_⟩
    · dsimp only; split <;> omega
    · dsimp only; split <;> omega
    · dsimp only; split <;> omega
    · dsimp only; split <;> omega
    · rw [ht]; exact dagM_put _ _ _ _ _
    · simp
  have keyL : ∀ {V : Site 𝕜} {t' : Int → Site 𝕜}, t' = put1 t (n + 1) V → ∀ k : Nat, k ≤ n → lv M t' x k = lv M t x k := by
    intro V t' e k hk'
    subst e
    exact lv_congr M fun i i1 i2 => ⟨put1_ne _ _ (by omega), rfl⟩
  have keyR : ∀ {V : Site 𝕜} {t' : Int → Site 𝕜}, t' = put1 t (n + 1) V → ∀ k : Nat, k ≤ m → rv M N t' x k = rv M N t x k := by
    intro V t' e k hk'
    subst e
    exact rv_congr M fun i i1 i2 => ⟨put1_ne _ _ (by omega), rfl⟩
  have eE : ∀ (F : EV 𝕜), (∀ k : Nat, k ≤ n → Function.update j.E ((n : Int) + 1) F k = lv M t x k) ∧
      (∀ i : Nat, i ≤ m → Function.update j.E ((n : Int) + 1) F (N + 1 - i) = rv M N t x i) := by
    intro F
    refine ⟨fun k hk' => ?_, fun i hi' => ?_⟩
    · rw [Function.update_of_ne (by omega)]; exact hi.left k (by omega)
    · rw [Function.update_of_ne (by omega)]; exact hi.right i (by omega)
  have kdim : (j.kx.t ((n : Int) + 1)).d = d := rfl
  have kl : dimL j.kx.t ((n : Int) + 1) = l := rfl
  have kr : dimR N j.kx.t ((n : Int) + 1) = r := rfl
  rcases hh with rfl | rfl
  · -- to the right
    set f := lwf (M.k ((n : Int) + 1 - 1)) (M.W (n + 1)) (x (n + 1)) (j.E ((n : Int) + 1 - 1)) with hf
    have ef : f = lwf (M.k n) (M.W (n + 1)) (x (n + 1)) (lv M t x n) := by rw [hf, eL, show (n : Int) + 1 - 1 = n by ring]
    have ep : projL fac (M.k ((n : Int) + 1)) (x (n + 1)).r f (j.E ((n : Int) + 1 + 1)) l d r = P := by rw [eR, ef, hP]; rfl
    set V := if 1 ≤ (n : Int) + 1 + 1 ∧ (n : Int) + 1 + 1 ≤ N then T j.log.length Dir.left l d r P else toSite P with hV
    obtain ⟨kx, e1, e2, e3, e4, e5, e6, e7, e8⟩ := code V
    have eb : body1 M T fac x j ((n : Int) + 1) 1 = .ok ⟨kx, Function.update j.E ((n : Int) + 1) (addL f (kx.t (n + 1))), j.log ++ [⟨(n : Int) + 1, 1, t, toSite P⟩]⟩ := by
      unfold body1 getE
      rw [if_pos rfl]
      dsimp only
      rw [if_pos (by omega), Res.bind_ok, if_pos (by omega), Res.bind_ok, hN]
      simp only [if_true]
      rw [kdim, kl, kr, ← hf, ep, ← hV, e1]
      rfl
    refine ⟨_, _, eb, rfl, rfl, rfl, hgood, (hbest _ f0).trans v0, fun _ hs => ?_, fun h => absurd h (by omega), fun h => ?_, e2, e5, e6⟩
    · rw [if_pos (by omega)] at hV
      obtain ⟨V1, V2, V3, V4⟩ := hT.left j.log.length l d r P
      obtain ⟨C, hCn⟩ := hε.left j.log.length l d r P
      rw [← hV] at V1 V2 V3 V4 hCn
      have er' : r = (t ((n : Int) + 1 + 1)).l := by rw [hr']; unfold dimR; rw [if_neg (by omega)]
      have fVC : Fit1 N t ((n : Int) + 1) (mulR V C r) := ⟨V1, V2, rfl⟩
      have cVC := ch fVC
      set B := mulL C (t ((n : Int) + 1 + 1)) V.r with hB
      have p0 : put2 (put1 t (n + 1) (mulR V C r)) ((n : Int) + 1) (mulR V C r, t (n + 1 + 1)) = put1 t (n + 1) (mulR V C r) := by
        rw [← put1_put2, put1_put1]
        unfold put1
        rw [Function.update_eq_self_iff, Function.update_of_ne (by omega)]
      have p1 : put2 (put1 t (n + 1) (mulR V C r)) ((n : Int) + 1) (V, B) = put1 (put1 t (n + 1) V) (n + 1 + 1) B := by
        rw [← put1_put2, put1_put1]
      have t1 : put1 t (n + 1) (mulR V C r) ((n : Int) + 1) = mulR V C r := put1_self _ _ _
      have t2 : put1 t (n + 1) (mulR V C r) ((n : Int) + 1 + 1) = t (n + 1 + 1) := put1_ne _ _ (by omega)
      have fp : Fit (put1 t (n + 1) (mulR V C r)) ((n : Int) + 1) (mulR V C r, t (n + 1 + 1)) := by
        have := fit_self cVC h1 hs; rwa [t1, t2] at this
      have fq : Fit (put1 t (n + 1) (mulR V C r)) ((n : Int) + 1) (V, B) := by
        refine ⟨?_, ?_, rfl, ?_, ?_⟩
        · rw [t1]; rfl
        · rw [t1]; rfl
        · rw [t2]; rfl
        · rw [t2]; rfl
      have hsame : errOf M N dd fac x (put1 (put1 t (n + 1) V) (n + 1 + 1) B) = errOf M N dd fac x (put1 t (n + 1) (mulR V C r)) := by
        have := dist_same (M := M) cVC cx hk h1 hs fq fp (by
          ext ⟨a, s₁, s₂, c⟩
          simp only [bl, bval, mulR, mulL, hB, er', sum_mul, mul_sum]
          rw [sum_comm]
          refine sum_congr rfl fun _ _ => sum_congr rfl fun _ _ => by ring) fac
        rw [p0, p1] at this
        exact this
      have cq : Chain N dd (put1 (put1 t (n + 1) V) (n + 1 + 1) B) := by rw [← p1]; exact chain_put2 cVC h1 hs fq
      have fB : Fit1 N (put1 t (n + 1) V) ((n : Int) + 1 + 1) B := by
        obtain ⟨a1, a2⟩ := chain_dims cq (s := (n : Int) + 1 + 1) (by omega) (by omega)
        obtain ⟨a3, a4⟩ := dims_put1 N (put1 t (n + 1) V) ((n : Int) + 1 + 1) B
        rw [put1_self] at a1 a2
        exact ⟨by rw [← a3, a1], by rw [put1_ne _ _ (by omega)]; rfl, by rw [← a4, a2]⟩
      have hsite : (kx.t ((n : Int) + 1 + 1)).d = dd (n + 1 + 1) := by
        change ((dagM kx).t ((n : Int) + 1 + 1)).d = _
        rw [e7, put1_ne _ _ (by omega), ← cq.site ((n : Int) + 1 + 1) (by omega) (by omega), put1_self]
        rfl
      refine ⟨e2, e3, e4, hsite, ⟨B, ?_, ?_, ?_⟩, fun i i1 i2 => ?_, fun i i1 i2 => ?_, fun k hk' => ?_, fun i hi' => ?_, fun i i1 i2 => ?_, fun i i1 i2 => ?_⟩
      · rw [e7]; exact fB
      · rw [e7]; exact cq
      · rw [e7, hsame, er fVC]
        change _ ≤ errOf M N dd fac x (put1 t (n + 1) (toSite P)) + _
        rw [eP]
        linarith
      · rw [e7]
        by_cases h : i = (n : Int) + 1
        · subst h; rw [put1_self]; exact V4
        · rw [put1_ne _ _ h]; exact hl i i1 (by omega)
      · rw [e7, put1_ne _ _ (by omega)]; exact hr i (by omega) i2
      · rcases Nat.lt_or_ge n k with hk2 | hk2
        · obtain rfl : k = n + 1 := by omega
          dsimp only
          rw [lv, keyL e7 n le_rfl, ← eL]
          push_cast
          rw [Function.update_self, hf, addL_eq, show (n : Int) + 1 - 1 = n by ring]
          rfl
        · rw [keyL e7 k hk2]
          exact (eE _).1 k hk2
      · rw [keyR e7 i (by omega)]
        exact (eE _).2 i (by omega)
      · rw [e7]
        by_cases h : i = (n : Int) + 1
        · subst h
          rw [put1_self]
          have := hi.rb ((n : Int) + 1) le_rfl hs
          rw [← ht] at this
          omega
        · rw [put1_ne _ _ h]; exact hi.lb i i1 (by omega)
      · rw [e7, put1_ne _ _ (by omega)]; exact hi.rb i (by omega) i2
    · have hs : (n : Int) + 1 = N := by omega
      rw [if_neg (by omega)] at hV
      rw [hV] at e7
      refine ⟨⟨e2, e3, e4, ?_, ⟨toSite P, ?_, ?_, ?_⟩, fun i i1 i2 => ?_, fun i i1 i2 => absurd i2 (by omega), fun k hk' => ?_, fun i hi' => ?_, fun i i1 i2 => ?_,
        fun i i1 i2 => absurd i2 (by omega)⟩, e7⟩
      · change ((dagM kx).t ((n : Int) + 1)).d = _
        rw [e7, put1_self]; exact hd
      · rw [e7]
        obtain ⟨a3, a4⟩ := dims_put1 N t ((n : Int) + 1) (toSite P)
        exact ⟨a3.symm, by rw [put1_self], a4.symm⟩
      · rw [e7, put1_put1]; exact ch fP
      · rw [e7, put1_put1]; exact le_rfl
      · rw [e7, put1_ne _ _ (by omega)]; exact hl i i1 (by omega)
      · rw [keyL e7 k (by omega)]
        exact (eE _).1 k (by omega)
      · rw [keyR e7 i (by omega)]
        exact (eE _).2 i (by omega)
      · rw [e7, put1_ne _ _ (by omega)]; exact hi.lb i i1 (by omega)
  · -- to the left
    set g := rwf (M.k ((n : Int) + 1)) (M.W (n + 1)) (x (n + 1)) (j.E ((n : Int) + 1 + 1)) with hg
    have ep : projR fac (M.k ((n : Int) + 1 - 1)) (x (n + 1)).l g (j.E ((n : Int) + 1 - 1)) l d r = P := by
      rw [eL, hg, eR, proj_eq, hP, show (n : Int) + 1 - 1 = n by ring]; rfl
    set V := if 1 ≤ (n : Int) + 1 + -1 ∧ (n : Int) + 1 + -1 ≤ N then T j.log.length Dir.right l d r P else toSite P with hV
    obtain ⟨kx, e1, e2, e3, e4, e5, e6, e7, e8⟩ := code V
    have eb : body1 M T fac x j ((n : Int) + 1) 2 = .ok ⟨kx, Function.update j.E ((n : Int) + 1) (addR g (kx.t (n + 1))), j.log ++ [⟨(n : Int) + 1, 2, t, toSite P⟩]⟩ := by
      unfold body1 getE
      rw [if_neg (by decide)]
      dsimp only
      rw [show (n : Int) + 1 - -1 = n + 1 + 1 by ring, if_pos (by omega), Res.bind_ok, if_pos (by omega), Res.bind_ok, hN]
      simp only [show ¬ ((2 : Int) = 1) by decide, if_false]
      rw [kdim, kl, kr, ← hg, show j.E ((n : Int) + 1 + -1) = j.E (n + 1 - 1) from rfl, ep, ← hV, e1]
      rfl
    refine ⟨_, _, eb, rfl, rfl, rfl, hgood, (hbest _ f0).trans v0, fun h => absurd h (by decide), fun _ hs => ?_, fun h => ?_, e2, e5, e6⟩
    · rw [if_pos (by omega)] at hV
      obtain ⟨V1, V2, V3, V4⟩ := hT.right j.log.length l d r P
      obtain ⟨C, hCn⟩ := hε.right j.log.length l d r P
      rw [← hV] at V1 V2 V3 V4 hCn
      have es : (n : Int) + 1 - 1 = n := by ring
      have el' : l = (t (n : Int)).r := by rw [hl']; unfold dimL; rw [if_neg (by omega), es]
      have fVC : Fit1 N t ((n : Int) + 1) (mulL C V l) := ⟨rfl, V2, V3⟩
      have cVC := ch fVC
      set B := mulR (t (n : Int)) C V.l with hB
      have p0 : put2 (put1 t (n + 1) (mulL C V l)) (n : Int) (t n, mulL C V l) = put1 t (n + 1) (mulL C V l) := by
        rw [← put1_put2', put1_put1]
        unfold put1
        rw [Function.update_eq_self_iff, Function.update_of_ne (by omega)]
      have p1 : put2 (put1 t (n + 1) (mulL C V l)) (n : Int) (B, V) = put1 (put1 t (n + 1) V) n B := by
        rw [← put1_put2', put1_put1]
      have t2 : put1 t (n + 1) (mulL C V l) ((n : Int) + 1) = mulL C V l := put1_self _ _ _
      have t1 : put1 t (n + 1) (mulL C V l) (n : Int) = t n := put1_ne _ _ (by omega)
      have fp : Fit (put1 t (n + 1) (mulL C V l)) (n : Int) (t n, mulL C V l) := by
        have := fit_self cVC (b := n) (by omega) (by omega); rwa [t1, t2] at this
      have fq : Fit (put1 t (n + 1) (mulL C V l)) (n : Int) (B, V) := by
        refine ⟨?_, ?_, rfl, ?_, ?_⟩
        · rw [t1]; rfl
        · rw [t1]; rfl
        · rw [t2]; rfl
        · rw [t2]; rfl
      have hsame : errOf M N dd fac x (put1 (put1 t (n + 1) V) n B) = errOf M N dd fac x (put1 t (n + 1) (mulL C V l)) := by
        have := dist_same (M := M) cVC cx hk (b := n) (by omega) (by omega) fq fp (by
          ext ⟨a, s₁, s₂, c⟩
          simp only [bl, bval, mulR, mulL, hB, sum_mul, mul_sum]
          rw [sum_comm]
          refine sum_congr rfl fun _ _ => sum_congr rfl fun _ _ => by ring) fac
        rw [p0, p1] at this
        exact this
      have cq : Chain N dd (put1 (put1 t (n + 1) V) n B) := by rw [← p1]; exact chain_put2 cVC (by omega) (by omega) fq
      have fB : Fit1 N (put1 t (n + 1) V) (n : Int) B := by
        obtain ⟨a1, a2⟩ := chain_dims cq (s := (n : Int)) (by omega) (by omega)
        obtain ⟨a3, a4⟩ := dims_put1 N (put1 t (n + 1) V) (n : Int) B
        rw [put1_self] at a1 a2
        exact ⟨by rw [← a3, a1], by rw [put1_ne _ _ (by omega)]; rfl, by rw [← a4, a2]⟩
      have hsite : (kx.t (n : Int)).d = dd n := by
        change ((dagM kx).t (n : Int)).d = _
        rw [e7, put1_ne _ _ (by omega), ← cq.site (n : Int) (by omega) (by omega), put1_self]
        rfl
      rw [es]
      refine ⟨e2, e3, e4, hsite, ⟨B, ?_, ?_, ?_⟩, fun i i1 i2 => ?_, fun i i1 i2 => ?_, fun k hk' => ?_, fun i hi' => ?_, fun i i1 i2 => ?_, fun i i1 i2 => ?_⟩
      · rw [e7]; exact fB
      · rw [e7]; exact cq
      · rw [e7, hsame, er fVC]
        change _ ≤ errOf M N dd fac x (put1 t (n + 1) (toSite P)) + _
        rw [eP]
        linarith
      · rw [e7, put1_ne _ _ (by omega)]; exact hl i (by omega) (by omega)
      · rw [e7]
        by_cases h : i = (n : Int) + 1
        · subst h; rw [put1_self]; exact V4
        · rw [put1_ne _ _ h]; exact hr i (by omega) (by omega)
      · rw [keyL e7 k (by omega)]
        exact (eE _).1 k (by omega)
      · rcases Nat.lt_or_ge m i with hk2 | hk2
        · obtain rfl : i = m + 1 := by omega
          have ei : (N : Int) - m = n + 1 := by omega
          dsimp only
          rw [rv, keyR e7 m le_rfl, ← eR, ei, show (N : Int) + 1 - ((m + 1 : Nat) : Int) = n + 1 by omega, Function.update_self, hg, addR_eq]
          rfl
        · rw [keyR e7 i hk2]
          exact (eE _).2 i hk2
      · rw [e7, put1_ne _ _ (by omega)]; exact hi.lb i i1 (by omega)
      · rw [e7]
        by_cases h : i = (n : Int)
        · subst h
          rw [put1_self]
          have := hi.lb (n : Int) (by omega) (by omega)
          rw [← ht] at this
          omega
        · rw [put1_ne _ _ (by omega)]; exact hi.rb i (by omega) i2
    · have hs : n = 0 := by omega
      rw [if_neg (by omega)] at hV
      rw [hV] at e7
      refine ⟨⟨e2, e3, e4, ?_, ⟨toSite P, ?_, ?_, ?_⟩, fun i i1 i2 => absurd i2 (by omega), fun i i1 i2 => ?_, fun k hk' => ?_, fun i hi' => ?_,
        fun i i1 i2 => absurd i2 (by omega), fun i i1 i2 => ?_⟩, e7⟩
      · change ((dagM kx).t ((n : Int) + 1)).d = _
        rw [e7, put1_self]; exact hd
      · rw [e7]
        obtain ⟨a3, a4⟩ := dims_put1 N t ((n : Int) + 1) (toSite P)
        exact ⟨a3.symm, by rw [put1_self], a4.symm⟩
      · rw [e7, put1_put1]; exact ch fP
      · rw [e7, put1_put1]; exact le_rfl
      · rw [e7, put1_ne _ _ (by omega)]; exact hr i (by omega) i2
      · rw [keyL e7 k (by omega)]
        exact (eE _).1 k (by omega)
      · rw [keyR e7 i (by omega)]
        exact (eE _).2 i (by omega)
      · rw [e7, put1_ne _ _ (by omega)]; exact hi.rb i (by omega) i2

end Verif.FitOne
