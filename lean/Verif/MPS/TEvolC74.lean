import Verif.MPS.TEvolProps

/-! # C74: gateTEvol applies the gates -/

noncomputable section

namespace Verif.TEvol

open Finset Verif.Limits Verif.DmrgNum

variable {𝕜 : Type*} [RCLike 𝕜]

/-- The factorization in `svdBond` gives tensors which fit, one of them orthogonal. It may truncate. -/
structure SplitFit (sp : Split 𝕜) : Prop where
  fits : ∀ n dir l d₁ d₂ r y, let p := sp n dir l d₁ d₂ r y
    p.1.l = l ∧ p.1.d = d₁ ∧ p.1.r = p.2.l ∧ p.2.d = d₂ ∧ p.2.r = r
  left : ∀ n l d₁ d₂ r y, LO (sp n .left l d₁ d₂ r y).1
  right : ∀ n l d₁ d₂ r y, RO (sp n .right l d₁ d₂ r y).2

/-- Nothing is truncated. -/
def SplitExact (sp : Split 𝕜) : Prop := ∀ n dir l d₁ d₂ r y, let p := sp n dir l d₁ d₂ r y
  ∀ i : Pl l d₁ d₂ r, bval p.1 p.2 i.1 i.2.1 i.2.2.1 i.2.2.2 = y i

/-- The gates are on neighbouring sites of a chain of `N`. -/
def Near (N : Nat) (gs : List (Gate 𝕜)) : Prop := ∀ g ∈ gs, g.i2 = g.i1 + 1 ∧ 1 ≤ g.i1 ∧ g.i1 < N

/-- The left site of the last gate. -/
def lastSite (gs : List (Gate 𝕜)) : Int := (gs.getLast?.map (·.i1)).getD 0

/-- The list can be started with given limits. -/
def Start : List (Gate 𝕜) → Int → Int → Prop
  | [], _, _ => True
  | [g], l, r => g.i1 - 1 ≤ l ∧ r ≤ g.i1 + 2
  | g :: g' :: _, l, r => if g'.i1 ≥ g.i2 then g.i1 - 1 ≤ l else r ≤ g.i1 + 2

/-- The list can be repeated: when the second gate is to the right of the first, the last one is not to the left of the first; otherwise
the last one is not further right than next to the first. -/
def Turn : List (Gate 𝕜) → Prop
  | g :: g' :: gs => if g'.i1 ≥ g.i2 then g.i1 ≤ lastSite (g :: g' :: gs) else lastSite (g :: g' :: gs) ≤ g.i1 + 1
  | _ => True

variable {o : Ops (Site 𝕜)} {sp : Split 𝕜}

theorem turn_start {N : Nat} {gs : List (Gate 𝕜)} (hn : Near N gs) : Turn gs ↔ Start gs (lastSite gs - 1) (lastSite gs + 1) := by
  match gs, hn with
  | [], _ => simp [Turn, Start]
  | [g], hn => simp only [Turn, Start, lastSite, List.getLast?_singleton, Option.map_some, Option.getD_some]; exact ⟨fun _ => by omega, fun _ => trivial⟩
  | g :: g' :: gs, hn =>
    simp only [Turn, Start]
    split <;> constructor <;> intro h <;> omega

/-- One gate. -/
theorem gate_step {dd : Int → Nat} (ho : GaugeOK o) (hS : SplitFit sp) {psi : MPS (Site 𝕜)} (hs : Sound o LO RO psi) (hc : Chain psi.N dd psi.t)
    (g : Gate 𝕜) (h1 : 1 ≤ g.i1) (h2 : g.i1 < psi.N) (n : Nat) (d : Dir) (hd : d = .left → g.i1 - 1 ≤ psi.l) (hd' : d = .right → psi.r ≤ g.i1 + 2) :
    ∃ psi', svdBond psi g.i1 (sp n d _ _ _ _ (applied g (psi.t g.i1) (psi.t (g.i1 + 1)))) d = .ok psi' ∧ Sound o LO RO psi' ∧ psi'.N = psi.N ∧
      Chain psi.N dd psi'.t ∧ (d = .left → psi'.l = g.i1 ∧ psi'.r = max psi.r (g.i1 + 2)) ∧ (d = .right → psi'.l = min psi.l (g.i1 - 1) ∧ psi'.r = g.i1 + 1) ∧
      (SplitExact sp → Eqv dd psi.N (wave psi'.t psi.N) (act dd g (wave psi.t psi.N))) := by
  have lk : ∀ a b, o.link a b = true ↔ a.r = b.l := fun a b => by rw [ho.link]; simp
  have hf := hS.fits n d _ _ _ _ (applied g (psi.t g.i1) (psi.t (g.i1 + 1)))
  have hE : SplitExact sp → _ := fun h => h n d _ _ _ _ (applied g (psi.t g.i1) (psi.t (g.i1 + 1)))
  have hL : d = .left → LO (sp n d _ _ _ _ (applied g (psi.t g.i1) (psi.t (g.i1 + 1)))).1 := by rintro rfl; exact hS.left _ _ _ _ _ _
  have hR : d = .right → RO (sp n d _ _ _ _ (applied g (psi.t g.i1) (psi.t (g.i1 + 1)))).2 := by rintro rfl; exact hS.right _ _ _ _ _ _
  generalize sp n d _ _ _ _ (applied g (psi.t g.i1) (psi.t (g.i1 + 1))) = p at *
  have fp : Fit psi.t g.i1 p := ⟨hf.1, hf.2.1, hf.2.2.1, hf.2.2.2.1, hf.2.2.2.2⟩
  have hok : (Call.svdBond g.i1 p d).Ok o LO RO psi := by
    refine ⟨h1, h2, (lk _ _).2 fp.m, fun hb => (lk _ _).2 ?_, fun hb => (lk _ _).2 ?_, hL, hR⟩
    · rw [fp.l, hc.link (g.i1 - 1) (by omega) (by omega), show g.i1 - 1 + 1 = g.i1 by ring]
    · rw [fp.r, hc.link (g.i1 + 1) (by omega) (by omega), show g.i1 + 1 + 1 = g.i1 + 2 by ring]
  have hi := hs.hi
  obtain ⟨psi', e2⟩ : ∃ psi', svdBond psi g.i1 p d = .ok psi' := by
    unfold svdBond
    rw [if_neg (by rintro ⟨h, h'⟩; have := hd h; omega), if_neg (by rintro ⟨h, h'⟩; have := hd' h; omega), if_neg (by omega)]
    cases d with
    | left => exact ⟨_, rfl⟩
    | right => exact ⟨_, rfl⟩
  obtain ⟨s', hN, ht, hl, hr⟩ := svdBond_sound hs hok e2
  have et : psi'.t = put2 psi.t g.i1 p := ht
  refine ⟨psi', e2, s', hN, by rw [et]; exact chain_put2 hc h1 h2 fp, hl, hr, fun hx σ hσ => ?_⟩
  rw [et]
  exact wave_gate hc g h1 h2 fp (hE hx) hσ

/-- The loop over the gates. -/
theorem gates_spec {dd : Int → Nat} (ho : GaugeOK o) (hS : SplitFit sp) : ∀ (gs : List (Gate 𝕜)) (n : Nat) (psi : MPS (Site 𝕜)), gs ≠ [] → Sound o LO RO psi →
    Chain psi.N dd psi.t → Near psi.N gs → Start gs psi.l psi.r →
    ∃ psi', gates o sp n gs psi = .ok psi' ∧ Sound o LO RO psi' ∧ psi'.N = psi.N ∧ Chain psi.N dd psi'.t ∧ psi'.l = lastSite gs - 1 ∧ psi'.r = lastSite gs + 1 ∧
      (SplitExact sp → Eqv dd psi.N (wave psi'.t psi.N) (actAll dd gs (wave psi.t psi.N))) := by
  intro gs
  induction gs with
  | nil => intro n psi h; exact absurd rfl h
  | cons g gs ih =>
    intro n psi _ hs hc hn hst
    obtain ⟨e2, g1, g2⟩ := hn g List.mem_cons_self
    rw [gates.eq_2, if_neg (by simp [e2]), e2]
    cases gs with
    | nil =>
      simp only [Start] at hst
      obtain ⟨psi', e, s', N', c', -, hr, hw⟩ := gate_step ho hS hs hc g g1 g2 n .right (by simp) fun _ => hst.2
      obtain ⟨l', r'⟩ := hr rfl
      refine ⟨psi', e, s', N', c', ?_, ?_, hw⟩
      · simp [lastSite]; omega
      · simpa [lastSite] using r'
    | cons g' gs =>
      obtain ⟨e2', g1', g2'⟩ := hn g' (by simp)
      have hlast : lastSite (g :: g' :: gs) = lastSite (g' :: gs) := by simp [lastSite]
      have fin : ∀ (psi1 : MPS (Site 𝕜)) (c : Int), Sound o LO RO psi1 → psi1.N = psi.N → Chain psi.N dd psi1.t →
          (SplitExact sp → Eqv dd psi.N (wave psi1.t psi.N) (act dd g (wave psi.t psi.N))) → (c = g'.i1 ∨ c = g'.i2) →
          ∃ psi', ((position o psi1 c).bind fun psi => gates o sp (n + 1) (g' :: gs) psi) = .ok psi' ∧ Sound o LO RO psi' ∧ psi'.N = psi.N ∧ Chain psi.N dd psi'.t ∧
            psi'.l = lastSite (g :: g' :: gs) - 1 ∧ psi'.r = lastSite (g :: g' :: gs) + 1 ∧
            (SplitExact sp → Eqv dd psi.N (wave psi'.t psi.N) (actAll dd (g :: g' :: gs) (wave psi.t psi.N))) := by
        intro psi1 c s1 N1 c1 w1 hcc
        obtain ⟨psi2, e3, s2, N2, l2, r2, c2, w2⟩ := position_wave ho s1 (by rw [N1]; exact c1) (i := c) (by omega) (by omega)
        rw [N1] at N2 c2 w2
        have hst2 : Start (g' :: gs) psi2.l psi2.r := by
          cases gs with
          | nil => simp only [Start]; omega
          | cons g'' gs => simp only [Start]; split <;> omega
        obtain ⟨psi3, e4, s3, N3, c3, l3, r3, w3⟩ := ih (n + 1) psi2 (by simp) s2 (by rw [N2]; exact c2) (by
          rw [N2]; exact fun x hx => hn x (List.mem_cons_of_mem _ hx)) hst2
        rw [N2] at N3 c3 w3
        refine ⟨psi3, by rw [e3, Res.bind_ok, e4], s3, N3, c3, by rw [hlast]; exact l3, by rw [hlast]; exact r3, fun hE σ hσ => ?_⟩
        rw [w3 hE σ hσ]
        exact actAll_eqv (g' :: gs) (fun τ hτ => (w2 τ hτ).trans (w1 hE τ hτ)) σ hσ
      dsimp only
      simp only [Start] at hst
      by_cases hd : g'.i1 ≥ g.i2
      · rw [if_pos hd] at hst
        rw [e2] at hd
        rw [if_pos hd]
        obtain ⟨psi1, e, s1, N1, c1, -, -, w1⟩ := gate_step ho hS hs hc g g1 g2 n .left (fun _ => hst) (by simp)
        rw [e]
        simp only [Res.bind_ok]
        exact fin psi1 _ s1 N1 c1 w1 (Or.inl rfl)
      · rw [if_neg hd] at hst
        rw [e2] at hd
        rw [if_neg hd]
        obtain ⟨psi1, e, s1, N1, c1, -, -, w1⟩ := gate_step ho hS hs hc g g1 g2 n .right (by simp) (fun _ => hst)
        rw [e]
        simp only [Res.bind_ok]
        exact fin psi1 _ s1 N1 c1 w1 (Or.inr rfl)

theorem gates_throw {gs : List (Gate 𝕜)} {N : Nat} (hn : Near N gs) {psi : MPS (Site 𝕜)} (hc : psi.l = lastSite gs - 1 ∧ psi.r = lastSite gs + 1) (ht : ¬ Turn gs) (n : Nat) :
    gates o sp n gs psi = .throw := by
  match gs, hn with
  | [], _ => exact absurd trivial ht
  | [g], _ => exact absurd trivial ht
  | g :: g' :: gs, hn =>
    obtain ⟨e2, g1, g2⟩ := hn g List.mem_cons_self
    rw [gates.eq_2, if_neg (by simp [e2])]
    dsimp only
    simp only [Turn] at ht
    split
    · next hd =>
      rw [if_pos hd] at ht
      unfold svdBond
      rw [if_pos ⟨rfl, by omega⟩]
      rfl
    · next hd =>
      rw [if_neg hd] at ht
      unfold svdBond
      rw [if_neg (by simp), if_pos ⟨rfl, by omega⟩]
      rfl

/-! ## Normalization -/

theorem wave_scale {N : Nat} {dd : Int → Nat} {t : Int → Site 𝕜} (c : Chain N dd t) {b : Int} (h1 : 1 ≤ b) (h2 : b ≤ N) (x : 𝕜) (σ : Int → Nat) :
    wave (Function.update t b (mulSite x (t b))) N σ = x * wave t N σ := by
  obtain ⟨n, rfl⟩ : ∃ n : Nat, b = ((n + 1 : Nat) : Int) := ⟨(b - 1).toNat, by push_cast; omega⟩
  obtain ⟨j, hj⟩ : ∃ j, n + 1 + j = N := ⟨N - (n + 1), by omega⟩
  have := amp_lin (ι := Unit) {()} (fun _ => x) c (m := n + 1) (by omega) (σ := σ) (τ := fun _ => σ) (t' := Function.update t ((n + 1 : Nat) : Int) (mulSite x (t ((n + 1 : Nat) : Int)))) (by
    intro k hk
    rw [sum_singleton, amp, amp]
    push_cast
    rw [Function.update_self, mul_sum]
    have ea : amp (Function.update t ((n : Int) + 1) (mulSite x (t ((n : Int) + 1)))) n σ = amp t n σ := amp_congr fun i i1 i2 => ⟨Function.update_of_ne (by omega) _ _, rfl⟩
    rw [ea]
    refine sum_congr rfl fun a _ => ?_
    simp only [mulSite]
    ring) (fun i hi => Function.update_of_ne (by omega) _ _) (fun _ _ _ _ => rfl) j (by omega) 0 (by rw [hj, c.last]; exact Nat.zero_lt_one)
  rw [hj, sum_singleton] at this
  exact this

theorem norm_spec {dd : Int → Nat} {psi : MPS (Site 𝕜)} (hs : Sound o LO RO psi) (hc : Chain psi.N dd psi.t) {b : Int} (h1 : 1 ≤ b) (h2 : b < psi.N)
    (hl : psi.l = b - 1) (hr : psi.r = b + 1) : norm psi = .ok (Real.sqrt (normSq dd psi.N (wave psi.t psi.N))) := by
  unfold norm orthoCenter isOrtho
  rw [if_pos (by simp only [decide_eq_true_eq]; omega), Res.bind_ok, hl, show b - 1 + 1 = b by ring,
    frob_center hc h1 h2 (fun i i1 i2 => hs.left i i1 (by omega)) fun i i1 i2 => hs.right i (by omega) i2]

theorem normalize_spec {dd : Int → Nat} (ho : GaugeOK o) {psi : MPS (Site 𝕜)} (hs : Sound o LO RO psi) (hc : Chain psi.N dd psi.t) {b : Int} (h1 : 1 ≤ b) (h2 : b < psi.N)
    (hl : psi.l = b - 1) (hr : psi.r = b + 1) (hz : 1 / 10 ^ 20 ≤ Real.sqrt (normSq dd psi.N (wave psi.t psi.N))) :
    ∃ psi', normalize psi = .ok (psi', Real.sqrt (normSq dd psi.N (wave psi.t psi.N))) ∧ Sound o LO RO psi' ∧ psi'.N = psi.N ∧ Chain psi.N dd psi'.t ∧
      psi'.l = psi.l ∧ psi'.r = psi.r ∧
      wave psi'.t psi.N = fun σ => ((1 / Real.sqrt (normSq dd psi.N (wave psi.t psi.N)) : ℝ) : 𝕜) * wave psi.t psi.N σ := by
  have lk : ∀ a b, o.link a b = true ↔ a.r = b.l := fun a b => by rw [ho.link]; simp
  generalize hν : Real.sqrt (normSq dd psi.N (wave psi.t psi.N)) = ν at *
  have hν0 : 0 ≤ ν := by rw [← hν]; exact Real.sqrt_nonneg _
  have e : scale psi (mulSite ((1 / ν : ℝ) : 𝕜)) = .ok { psi with t := Function.update psi.t b (mulSite ((1 / ν : ℝ) : 𝕜) (psi.t b)) } := by
    unfold scale ref
    rw [hl, show b - 1 + 1 = b by ring]
    dsimp only
    rw [if_neg (show ¬ b < 0 by omega), if_pos (by omega)]
    simp only [Res.bind_ok]
    rw [if_neg (by omega), if_neg (by omega), ← hl]
  refine ⟨{ psi with t := Function.update psi.t b (mulSite ((1 / ν : ℝ) : 𝕜) (psi.t b)) }, ?_, ?_, rfl, ?_, rfl, rfl, ?_⟩
  · unfold normalize
    rw [norm_spec hs hc h1 h2 hl hr, hν, Res.bind_ok, if_neg (by rw [abs_of_nonneg hν0]; exact not_lt.2 hz), e]
    rfl
  · refine call_sound ho.factor hs (c := .scale (mulSite ((1 / ν : ℝ) : 𝕜))) ⟨?_, ?_⟩ e
    · intro a b h; rw [lk] at h ⊢; exact h
    · intro a b h; rw [lk] at h ⊢; exact h
  · have hm : ∀ i, (Function.update psi.t b (mulSite ((1 / ν : ℝ) : 𝕜) (psi.t b)) i).l = (psi.t i).l ∧
        (Function.update psi.t b (mulSite ((1 / ν : ℝ) : 𝕜) (psi.t b)) i).d = (psi.t i).d ∧ (Function.update psi.t b (mulSite ((1 / ν : ℝ) : 𝕜) (psi.t b)) i).r = (psi.t i).r := by
      intro i
      by_cases h : i = b
      · subst h; rw [Function.update_self]; exact ⟨rfl, rfl, rfl⟩
      · rw [Function.update_of_ne h]; exact ⟨rfl, rfl, rfl⟩
    refine ⟨?_, ?_, ?_, ?_⟩
    · rw [(hm _).1]; exact hc.first
    · rw [(hm _).2.2]; exact hc.last
    · intro i i1 i2; rw [(hm _).2.1]; exact hc.site i i1 i2
    · intro i i1 i2; rw [(hm _).2.2, (hm _).1]; exact hc.link i i1 i2
  · funext σ
    exact wave_scale hc h1 (by omega) _ σ

/-! ## The steps -/

/-- In none of the steps the norm becomes so small that `normalize` takes it as zero. -/
def Alive (dd : Int → Nat) (N : Nat) (gs : List (Gate 𝕜)) : Nat → ((Int → Nat) → 𝕜) → Prop
  | 0, _ => True
  | k + 1, φ => 1 / 10 ^ 20 ≤ Real.sqrt (normSq dd N (actAll dd gs φ)) ∧
      Alive dd N gs k fun σ => ((1 / Real.sqrt (normSq dd N (actAll dd gs φ)) : ℝ) : 𝕜) * actAll dd gs φ σ

theorem Alive.eqv {dd : Int → Nat} {N : Nat} {gs : List (Gate 𝕜)} : ∀ {k : Nat} {φ φ' : (Int → Nat) → 𝕜}, Eqv dd N φ φ' → Alive dd N gs k φ → Alive dd N gs k φ' := by
  intro k
  induction k with
  | zero => intros; trivial
  | succ k ih =>
    intro φ φ' h ha
    have e := actAll_eqv gs h
    obtain ⟨h1, h2⟩ := ha
    refine ⟨by rw [← normSq_eqv e]; exact h1, ih ?_ h2⟩
    intro σ hσ
    simp only
    rw [← normSq_eqv e, e σ hσ]

theorem lastSite_near {N : Nat} {gs : List (Gate 𝕜)} (hne : gs ≠ []) (hn : Near N gs) : 1 ≤ lastSite gs ∧ lastSite gs < N := by
  obtain ⟨g, hg⟩ := Option.ne_none_iff_exists'.1 (fun h => hne (List.getLast?_eq_none_iff.1 h))
  have := hn g (List.mem_of_getLast? hg)
  simp only [lastSite, hg, Option.map_some, Option.getD_some]
  exact ⟨this.2.1, this.2.2⟩

theorem steps_plain {dd : Int → Nat} (ho : GaugeOK o) (hS : SplitFit sp) {gs : List (Gate 𝕜)} (hne : gs ≠ []) : ∀ (k n : Nat) (psi : MPS (Site 𝕜)) (tot : ℝ), Sound o LO RO psi →
    Chain psi.N dd psi.t → Near psi.N gs → (1 ≤ k → Start gs psi.l psi.r) → (2 ≤ k → Turn gs) →
    ∃ psi', steps o sp gs false k n psi tot = .ok (psi', tot) ∧ Sound o LO RO psi' ∧ psi'.N = psi.N ∧ Chain psi.N dd psi'.t ∧
      (1 ≤ k → psi'.l = lastSite gs - 1 ∧ psi'.r = lastSite gs + 1) ∧
      (SplitExact sp → Eqv dd psi.N (wave psi'.t psi.N) (evolve dd gs k (wave psi.t psi.N))) := by
  intro k
  induction k with
  | zero => intro n psi tot hs hc _ _ _; exact ⟨psi, rfl, hs, rfl, hc, by simp, fun _ _ _ => rfl⟩
  | succ k ih =>
    intro n psi tot hs hc hn hst ht
    obtain ⟨psi1, e1, s1, N1, c1, l1, r1, w1⟩ := gates_spec ho hS gs n psi hne hs hc hn (hst (by omega))
    rw [steps, e1, Res.bind_ok, if_neg (by simp)]
    obtain ⟨psi2, e2, s2, N2, c2, lr, w2⟩ := ih (n + gs.length) psi1 tot s1 (by rw [N1]; exact c1) (by rw [N1]; exact hn)
      (fun hk => by rw [l1, r1]; exact (turn_start hn).1 (ht (by omega))) (fun _ => ht (by omega))
    rw [N1] at N2 c2 w2
    refine ⟨psi2, e2, s2, N2, c2, fun _ => ?_, fun hE σ hσ => ?_⟩
    · rcases Nat.eq_zero_or_pos k with rfl | hk
      · obtain rfl : psi1 = psi2 := by simpa [steps] using e2
        exact ⟨l1, r1⟩
      · exact lr hk
    · rw [w2 hE σ hσ]
      exact evolve_eqv gs k (w1 hE) σ hσ

theorem steps_norm {dd : Int → Nat} (ho : GaugeOK o) (hS : SplitFit sp) (hE : SplitExact sp) {gs : List (Gate 𝕜)} (hne : gs ≠ []) :
    ∀ (k n : Nat) (psi : MPS (Site 𝕜)) (tot : ℝ), Sound o LO RO psi → Chain psi.N dd psi.t → Near psi.N gs → (1 ≤ k → Start gs psi.l psi.r) → (2 ≤ k → Turn gs) →
    Alive dd psi.N gs k (wave psi.t psi.N) →
    ∃ psi' x, steps o sp gs true k n psi tot = .ok (psi', tot * x) ∧ 0 < x ∧ Sound o LO RO psi' ∧ psi'.N = psi.N ∧ Chain psi.N dd psi'.t ∧
      (1 ≤ k → psi'.l = lastSite gs - 1 ∧ psi'.r = lastSite gs + 1) ∧ (1 ≤ k → normSq dd psi.N (wave psi'.t psi.N) = 1) ∧
      Eqv dd psi.N (fun σ => ((x : ℝ) : 𝕜) * wave psi'.t psi.N σ) (evolve dd gs k (wave psi.t psi.N)) := by
  intro k
  induction k with
  | zero => intro n psi tot hs hc _ _ _ _; exact ⟨psi, 1, by rw [mul_one]; rfl, one_pos, hs, rfl, hc, by simp, by simp, fun _ _ => by simp [evolve]⟩
  | succ k ih =>
    intro n psi tot hs hc hn hst ht ha
    obtain ⟨psi1, e1, s1, N1, c1, l1, r1, w1⟩ := gates_spec ho hS gs n psi hne hs hc hn (hst (by omega))
    have w1 := w1 hE
    have hlast := lastSite_near hne hn
    obtain ⟨a1, a2⟩ := ha
    rw [← normSq_eqv w1] at a1 a2
    have hpos : 0 < Real.sqrt (normSq dd psi.N (wave psi1.t psi.N)) := lt_of_lt_of_le (by positivity) a1
    obtain ⟨psi2, e2, s2, N2, c2, l2, r2, w2⟩ := normalize_spec ho s1 (dd := dd) (by rw [N1]; exact c1) hlast.1 (by rw [N1]; exact hlast.2) l1 r1 (by rw [N1]; exact a1)
    rw [N1] at e2 N2 c2 w2
    have hone : normSq dd psi.N (wave psi2.t psi.N) = 1 := by
      rw [w2, normSq_mul, RCLike.norm_ofReal, sq_abs, div_pow, one_pow, Real.sq_sqrt (normSq_nonneg _ _ _), div_mul_cancel₀]
      intro h
      rw [h, Real.sqrt_zero] at hpos
      exact lt_irrefl _ hpos
    rw [steps, e1, Res.bind_ok, if_pos rfl, e2, Res.bind_ok]
    dsimp only
    generalize Real.sqrt (normSq dd psi.N (wave psi1.t psi.N)) = ν at *
    have hback : Eqv dd psi.N (fun σ => ((ν : ℝ) : 𝕜) * wave psi2.t psi.N σ) (actAll dd gs (wave psi.t psi.N)) := by
      intro σ hσ
      simp only [w2]
      rw [← w1 σ hσ, ← mul_assoc, ← RCLike.ofReal_mul, mul_one_div_cancel hpos.ne', RCLike.ofReal_one, one_mul]
    obtain ⟨psi3, x, e3, x0, s3, N3, c3, lr, o3, w3⟩ := ih (n + gs.length) psi2 (tot * ν) s2 (by rw [N2]; exact c2) (by rw [N2]; exact hn)
      (fun hk => by rw [l2, r2, l1, r1]; exact (turn_start hn).1 (ht (by omega))) (fun _ => ht (by omega)) (by
        rw [N2, w2]
        refine Alive.eqv (fun σ hσ => ?_) a2
        rw [w1 σ hσ])
    rw [N2] at N3 c3 o3 w3
    refine ⟨psi3, ν * x, by rw [e3, mul_assoc], mul_pos hpos x0, s3, N3, c3, fun _ => ?_, fun _ => ?_, fun σ hσ => ?_⟩
    · rcases Nat.eq_zero_or_pos k with rfl | hk
      · obtain ⟨rfl, -⟩ : psi2 = psi3 ∧ _ := by simpa [steps] using e3
        rw [l2, r2]
        exact ⟨l1, r1⟩
      · exact lr hk
    · rcases Nat.eq_zero_or_pos k with rfl | hk
      · obtain ⟨rfl, -⟩ : psi2 = psi3 ∧ _ := by simpa [steps] using e3
        exact hone
      · exact o3 hk
    · rw [evolve, ← evolve_eqv gs k hback σ hσ, evolve_mul]
      simp only
      rw [← w3 σ hσ]
      push_cast
      ring

/-! ## The number of steps -/

theorem number_mul {tstep : ℝ} (h : tstep ≠ 0) {k : Nat} (hk : k < 10 ^ 9) : number (k * tstep) tstep = .ok k := by
  have hk' : (k : ℝ) < 10 ^ 9 := by exact_mod_cast hk
  have e : trunc (k * tstep / tstep + 1 / 10 ^ 9 * (k * tstep / tstep)) = k := by
    rw [mul_div_cancel_right₀ _ h]
    unfold trunc
    rw [if_pos (by positivity), Int.floor_eq_iff]
    constructor
    · have : (0 : ℝ) ≤ 1 / 10 ^ 9 * k := by positivity
      push_cast
      linarith
    · push_cast
      have : 1 / 10 ^ 9 * (k : ℝ) < 1 := by rw [one_div, inv_mul_lt_iff₀ (by positivity)]; simpa using hk'
      linarith
  unfold number
  rw [if_neg h]
  dsimp only
  rw [e, if_neg (by push Not; constructor <;> omega), if_neg (by push_cast; rw [sub_self, abs_zero]; push Not; positivity)]

/-! ## C74 -/

/-- **C74** (without normalization). The state at the end is the initial one acted upon by the gates of the list, in their order, as
many times as there are steps; with truncation there is still no error, and the centre is at the last gate. Missing: lists which cannot be
repeated. -/
theorem C74_gates_partial {dd : Int → Nat} (ho : GaugeOK o) (hS : SplitFit sp) {gs : List (Gate 𝕜)} (hne : gs ≠ []) {psi : MPS (Site 𝕜)} (hr : Reach o LO RO psi)
    (hc : Chain psi.N dd psi.t) (hn : Near psi.N gs) {k : Nat} (hk : k < 10 ^ 9) (ht : k ≤ 1 ∨ Turn gs) {tstep : ℝ} (h0 : tstep ≠ 0) :
    ∃ psi', gateTEvol o sp gs (k * tstep) tstep false psi = .ok (psi', Real.sqrt (normSq dd psi.N (wave psi.t psi.N))) ∧
      (1 ≤ k → orthoCenter psi' = .ok (lastSite gs)) ∧ Chain psi.N dd psi'.t ∧
      (SplitExact sp → ∀ σ, Cfg dd psi.N σ → wave psi'.t psi.N σ = evolve dd gs k (wave psi.t psi.N) σ) := by
  match gs, hne with
  | g :: gs, hne =>
    obtain ⟨g0, g1, g2⟩ := hn g List.mem_cons_self
    obtain ⟨psi1, e1, s1, N1, l1, r1, c1, w1⟩ := position_wave ho (C40_limits ho.factor hr) hc (i := g.i1) g1 (by omega)
    have hst : Start (g :: gs) psi1.l psi1.r := by
      cases gs with
      | nil => simp only [Start]; omega
      | cons g' gs => simp only [Start]; split <;> omega
    obtain ⟨psi2, e2, s2, N2, c2, lr, w2⟩ := steps_plain ho hS hne k 0 psi1 (Real.sqrt (normSq dd psi.N (wave psi.t psi.N))) s1 (by rw [N1]; exact c1) (by rw [N1]; exact hn)
      (fun _ => hst) (fun h => ht.resolve_left (by omega))
    rw [N1] at c2 w2
    refine ⟨psi2, ?_, fun h => ?_, c2, fun hE σ hσ => ?_⟩
    · unfold gateTEvol
      rw [number_mul h0 hk, Res.bind_ok]
      dsimp only
      rw [e1, Res.bind_ok, norm_spec s1 (by rw [N1]; exact c1) g1 (by rw [N1]; exact g2) l1 r1, Res.bind_ok, N1, normSq_eqv w1, Int.toNat_natCast, e2]
    · obtain ⟨l2, r2⟩ := lr h
      unfold orthoCenter isOrtho
      rw [if_pos (by simp only [decide_eq_true_eq]; omega), l2, sub_add_cancel]
    · rw [w2 hE σ hσ]
      exact evolve_eqv _ k w1 σ hσ

/-- **C74** (with normalization, which is the default). The state at the end has norm 1 and is the initial one acted upon by the gates,
divided by the norm of that; the number returned is that norm times the norm of the initial state. -/
theorem C74_normalized_partial {dd : Int → Nat} (ho : GaugeOK o) (hS : SplitFit sp) (hE : SplitExact sp) {gs : List (Gate 𝕜)} (hne : gs ≠ []) {psi : MPS (Site 𝕜)}
    (hr : Reach o LO RO psi) (hc : Chain psi.N dd psi.t) (hn : Near psi.N gs) {k : Nat} (h1 : 1 ≤ k) (hk : k < 10 ^ 9) (ht : k ≤ 1 ∨ Turn gs) {tstep : ℝ} (h0 : tstep ≠ 0)
    (ha : Alive dd psi.N gs k (wave psi.t psi.N)) :
    ∃ psi' x, gateTEvol o sp gs (k * tstep) tstep true psi = .ok (psi', Real.sqrt (normSq dd psi.N (wave psi.t psi.N)) * x) ∧
      x = Real.sqrt (normSq dd psi.N (evolve dd gs k (wave psi.t psi.N))) ∧ Chain psi.N dd psi'.t ∧ normSq dd psi.N (wave psi'.t psi.N) = 1 ∧
      ∀ σ, Cfg dd psi.N σ → (x : 𝕜) * wave psi'.t psi.N σ = evolve dd gs k (wave psi.t psi.N) σ := by
  match gs, hne with
  | g :: gs, hne =>
    obtain ⟨g0, g1, g2⟩ := hn g List.mem_cons_self
    obtain ⟨psi1, e1, s1, N1, l1, r1, c1, w1⟩ := position_wave ho (C40_limits ho.factor hr) hc (i := g.i1) g1 (by omega)
    have hst : Start (g :: gs) psi1.l psi1.r := by
      cases gs with
      | nil => simp only [Start]; omega
      | cons g' gs => simp only [Start]; split <;> omega
    obtain ⟨psi2, x, e2, x0, s2, N2, c2, lr, o2, w2⟩ := steps_norm ho hS hE hne k 0 psi1 (Real.sqrt (normSq dd psi.N (wave psi.t psi.N))) s1 (by rw [N1]; exact c1) (by rw [N1]; exact hn)
      (fun _ => hst) (fun h => ht.resolve_left (by omega)) (by rw [N1]; exact ha.eqv fun σ hσ => (w1 σ hσ).symm)
    rw [N1] at c2 o2 w2
    have hw : Eqv dd psi.N (fun σ => (x : 𝕜) * wave psi2.t psi.N σ) (evolve dd (g :: gs) k (wave psi.t psi.N)) :=
      fun σ hσ => (w2 σ hσ).trans (evolve_eqv _ k w1 σ hσ)
    refine ⟨psi2, x, ?_, ?_, c2, o2 h1, hw⟩
    · unfold gateTEvol
      rw [number_mul h0 hk, Res.bind_ok]
      dsimp only
      rw [e1, Res.bind_ok, norm_spec s1 (by rw [N1]; exact c1) g1 (by rw [N1]; exact g2) l1 r1, Res.bind_ok, N1, normSq_eqv w1, Int.toNat_natCast, e2]
    · rw [← normSq_eqv hw, normSq_mul, o2 h1, mul_one, RCLike.norm_ofReal, sq_abs, Real.sqrt_sq x0.le]

/-- A list which cannot be repeated: the second step always ends with an error, because the centre is not moved back to the first gate. -/
theorem C74_repeat_counterexample {dd : Int → Nat} (ho : GaugeOK o) (hS : SplitFit sp) {gs : List (Gate 𝕜)} {psi : MPS (Site 𝕜)} (hr : Reach o LO RO psi)
    (hc : Chain psi.N dd psi.t) (hn : Near psi.N gs) (ht : ¬ Turn gs) {k : Nat} (h2 : 2 ≤ k) (hk : k < 10 ^ 9) {tstep : ℝ} (h0 : tstep ≠ 0) (norml : Bool) :
    gateTEvol o sp gs (k * tstep) tstep norml psi = .throw := by
  match gs, hn with
  | [], _ => exact absurd trivial ht
  | g :: gs, hn =>
    obtain ⟨g0, g1, g2⟩ := hn g List.mem_cons_self
    obtain ⟨psi1, e1, s1, N1, l1, r1, c1, w1⟩ := position_wave ho (C40_limits ho.factor hr) hc (i := g.i1) g1 (by omega)
    have hst : Start (g :: gs) psi1.l psi1.r := by
      cases gs with
      | nil => simp only [Start]; omega
      | cons g' gs => simp only [Start]; split <;> omega
    obtain ⟨psi2, e2, s2, N2, c2, l2, r2, -⟩ := gates_spec ho hS (g :: gs) 0 psi1 (by simp) s1 (by rw [N1]; exact c1) (by rw [N1]; exact hn) hst
    rw [N1] at N2 c2
    have hlast := lastSite_near (by simp) hn
    obtain ⟨k, rfl⟩ : ∃ j, k = j + 1 + 1 := ⟨k - 2, by omega⟩
    unfold gateTEvol
    rw [number_mul h0 hk, Res.bind_ok]
    dsimp only
    rw [e1, Res.bind_ok, norm_spec s1 (by rw [N1]; exact c1) g1 (by rw [N1]; exact g2) l1 r1, Res.bind_ok, Int.toNat_natCast, steps, e2, Res.bind_ok]
    cases norml with
    | false =>
      rw [if_neg (by simp), steps, gates_throw hn ⟨l2, r2⟩ ht]
      rfl
    | true =>
      rw [if_pos rfl]
      by_cases hz : 1 / 10 ^ 20 ≤ Real.sqrt (normSq dd psi2.N (wave psi2.t psi2.N))
      · obtain ⟨psi3, e3, -, -, -, l3, r3, -⟩ := normalize_spec ho s2 (dd := dd) (by rw [N2]; exact c2) hlast.1 (by rw [N2]; exact hlast.2) l2 r2 hz
        rw [e3, Res.bind_ok]
        dsimp only
        rw [steps, gates_throw hn ⟨by rw [l3, l2], by rw [r3, r2]⟩ ht]
        rfl
      · unfold normalize
        rw [norm_spec s2 (dd := dd) (by rw [N2]; exact c2) hlast.1 (by rw [N2]; exact hlast.2) l2 r2, Res.bind_ok, if_pos (by
          rw [abs_of_nonneg (Real.sqrt_nonneg _)]; exact not_le.1 hz)]
        rfl

/-- A negative time with a positive step: nothing is done, and there is no error. -/
theorem C74_negative_counterexample {dd : Int → Nat} (ho : GaugeOK o) {g : Gate 𝕜} {gs : List (Gate 𝕜)} {psi : MPS (Site 𝕜)} (hr : Reach o LO RO psi)
    (hc : Chain psi.N dd psi.t) (hn : Near psi.N (g :: gs)) (norml : Bool) :
    ∃ psi' x, gateTEvol o sp (g :: gs) (-1) (1 / 10) norml psi = .ok (psi', x) ∧ ∀ σ, Cfg dd psi.N σ → wave psi'.t psi.N σ = wave psi.t psi.N σ := by
  obtain ⟨g0, g1, g2⟩ := hn g List.mem_cons_self
  obtain ⟨psi1, e1, s1, N1, l1, r1, c1, w1⟩ := position_wave ho (C40_limits ho.factor hr) hc (i := g.i1) g1 (by omega)
  refine ⟨psi1, Real.sqrt (normSq dd psi1.N (wave psi1.t psi1.N)), ?_, w1⟩
  have e : number (-1) (1 / 10) = .ok (-10) := by
    unfold number
    rw [if_neg (by norm_num)]
    have : trunc ((-1 : ℝ) / (1 / 10) + 1 / 10 ^ 9 * (-1 / (1 / 10))) = -10 := by
      unfold trunc
      rw [if_neg (by norm_num), Int.ceil_eq_iff]
      constructor <;> norm_num
    dsimp only
    rw [this, if_neg (by norm_num), if_neg (by norm_num)]
  unfold gateTEvol
  rw [e, Res.bind_ok]
  dsimp only
  rw [e1, Res.bind_ok, norm_spec s1 (dd := dd) (by rw [N1]; exact c1) g1 (by rw [N1]; exact g2) l1 r1, Res.bind_ok, show (-10 : Int).toNat = 0 from rfl, steps]

/-! ## The hypotheses can be met -/

/-- Exact factorizations. -/
def exSplit : Split 𝕜 := fun _ dir _ _ _ _ x => match dir with
  | .left => trivL x
  | .right => trivR x

theorem exSplit_fit : SplitFit (exSplit (𝕜 := 𝕜)) := by
  refine ⟨?_, fun n l d₁ d₂ r y => trivL_lo y, fun n l d₁ d₂ r y => trivR_ro y⟩
  intro n dir l d₁ d₂ r y
  cases dir <;> exact ⟨rfl, rfl, rfl, rfl, rfl⟩

theorem exSplit_exact : SplitExact (exSplit (𝕜 := 𝕜)) := by
  intro n dir l d₁ d₂ r y
  cases dir
  · exact bval_trivL y
  · exact bval_trivR y

/-- The gate which exchanges two spins. -/
def swapGate (b : Int) : Gate 𝕜 := ⟨b, b + 1, fun a b c d => if a = d ∧ b = c then 1 else 0⟩

theorem ex_reach : Reach exOps LO RO (⟨4, fun _ => exSite (𝕜 := 𝕜), 0, 5⟩ : MPS (Site 𝕜)) := Reach.init 4 _ (by decide) fun _ _ _ => by simp [exOps, exSite]

theorem ex_reach3 : Reach exOps LO RO (⟨3, fun _ => exSite (𝕜 := 𝕜), 0, 4⟩ : MPS (Site 𝕜)) := Reach.init 3 _ (by decide) fun _ _ _ => by simp [exOps, exSite]

theorem ex_chain (N : Nat) : Chain N (fun _ => 2) (fun _ => exSite (𝕜 := 𝕜)) := ⟨rfl, rfl, fun _ _ _ => rfl, fun _ _ _ => rfl⟩

theorem ex_near {N : Nat} {l : List Int} (h : ∀ b ∈ l, 1 ≤ b ∧ b < N) : Near N (l.map (swapGate (𝕜 := 𝕜))) := by
  intro g hg
  obtain ⟨b, hb, rfl⟩ := List.mem_map.1 hg
  exact ⟨rfl, h b hb⟩

/-- Forth and back on four sites, three steps. -/
example : ∃ q : MPS (Site ℂ) × ℝ, gateTEvol exOps exSplit ([1, 2, 3, 3, 2, 1].map swapGate) ((3 : Nat) * (1 / 10)) (1 / 10) false ⟨4, fun _ => exSite, 0, 5⟩ = .ok q :=
  let ⟨psi', h, _⟩ := C74_gates_partial exOps_ok exSplit_fit (by decide) ex_reach (ex_chain 4) (ex_near (by decide)) (k := 3) (by decide)
    (Or.inr (by simp [Turn, swapGate, lastSite])) (by norm_num)
  ⟨_, h⟩

/-- The bonds 2, 3 and 1, two steps. -/
example : gateTEvol exOps exSplit ([2, 3, 1].map swapGate) ((2 : Nat) * (1 / 10)) (1 / 10) true (⟨4, fun _ => exSite, 0, 5⟩ : MPS (Site ℂ)) = .throw :=
  C74_repeat_counterexample exOps_ok exSplit_fit ex_reach (ex_chain 4) (ex_near (by decide)) (by simp [Turn, swapGate, lastSite]) (k := 2) (by decide) (by decide) (by norm_num) _

theorem ex_swap {σ : Int → Nat} (hσ : Cfg (fun _ => 2) 3 σ) :
    evolve (fun _ => 2) [swapGate (𝕜 := 𝕜) 1] 1 (wave (fun _ => exSite) 3) σ = wave (fun _ => exSite) 3 σ := by
  have h1 : σ 1 < 2 := hσ 1 (by decide) (by decide)
  have h2 : σ 2 < 2 := hσ 2 (by decide) (by decide)
  simp only [evolve, actAll, List.foldl_cons, List.foldl_nil, act, swapGate]
  simp only [wave, amp, exSite, sum_range_succ, Function.update, range_zero, sum_empty]
  obtain e1 | e1 : σ 1 = 0 ∨ σ 1 = 1 := by omega
  all_goals obtain e2 | e2 : σ 2 = 0 ∨ σ 2 = 1 := by omega
  all_goals simp [e1, e2]

/-- The number returned is not the norm of the evolved state when the initial state is not normalized: a state of norm `√125` is left as
it is by an exchange of two spins, but the number returned is 125. -/
theorem C74_norm_counterexample : ∃ psi' : MPS (Site 𝕜),
    gateTEvol exOps exSplit [swapGate 1] ((1 : Nat) * 1) 1 true (⟨3, fun _ => exSite, 0, 4⟩ : MPS (Site 𝕜)) = .ok (psi', 125) ∧
      normSq (fun _ => 2) 3 (evolve (fun _ => 2) [swapGate (𝕜 := 𝕜) 1] 1 (wave (fun _ => exSite) 3)) = 125 := by
  have hw : Eqv (fun _ => 2) 3 (evolve (fun _ => 2) [swapGate (𝕜 := 𝕜) 1] 1 (wave (fun _ => exSite) 3)) (wave (fun _ => exSite) 3) := fun σ hσ => ex_swap hσ
  have h5 : normSq (fun _ => 2) 3 (evolve (fun _ => 2) [swapGate (𝕜 := 𝕜) 1] 1 (wave (fun _ => exSite) 3)) = 125 := by rw [normSq_eqv hw, ex_norm]
  obtain ⟨psi', x, e, hx, -⟩ := C74_normalized_partial (𝕜 := 𝕜) exOps_ok exSplit_fit exSplit_exact (gs := [swapGate 1]) (by simp) ex_reach3 (ex_chain 3) (ex_near (N := 3) (l := [1]) (by decide)) (k := 1) le_rfl
    (by decide) (Or.inl le_rfl) (tstep := 1) (by norm_num) (by
      refine ⟨?_, trivial⟩
      change 1 / 10 ^ 20 ≤ Real.sqrt (normSq (fun _ => 2) 3 (evolve (fun _ => 2) [swapGate (𝕜 := 𝕜) 1] 1 (wave (fun _ => exSite) 3)))
      rw [h5]
      exact Real.le_sqrt_of_sq_le (by norm_num))
  refine ⟨psi', ?_, h5⟩
  rw [e, hx]
  dsimp only
  rw [h5, ex_norm, Real.mul_self_sqrt (by norm_num)]

end Verif.TEvol
