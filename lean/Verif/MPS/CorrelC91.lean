import Verif.MPS.CorrelProps
import Verif.MPS.TEvolC74

/-! # C91, C92: correlation functions and expectation values -/

noncomputable section

namespace Verif.Correl

open Finset Verif.Limits
open Verif.DmrgNum

variable {𝕜 : Type*} [RCLike 𝕜]

/-! ## The operators -/

theorem one_mulOp {d : Nat} {a : Op 𝕜} {s' s : Nat} (h : s' < d) : mulOp d one a s' s = a s' s := by
  unfold mulOp one
  rw [sum_eq_single s' (fun x _ hne => by rw [if_neg (Ne.symm hne), zero_mul]) (fun hn => absurd (by simpa using h) hn), if_pos rfl, one_mul]

theorem mulOp_one {d : Nat} {a : Op 𝕜} {s' s : Nat} (h : s < d) : mulOp d a one s' s = a s' s := by
  unfold mulOp one
  rw [sum_eq_single s (fun x _ hne => by rw [if_neg hne, mul_zero]) (fun hn => absurd (by simpa using h) hn), if_pos rfl, mul_one]

theorem mulOp_conj {d : Nat} {a b : Op 𝕜} {s' s : Nat} :
    (starRingEnd 𝕜) (mulOp d a b s s') = mulOp d (fun x y => (starRingEnd 𝕜) (b y x)) (fun x y => (starRingEnd 𝕜) (a y x)) s' s := by
  unfold mulOp
  rw [map_sum]
  refine sum_congr rfl fun x _ => ?_
  rw [map_mul, mul_comm]

theorem mulOp_congr {d : Nat} {a b a' b' : Op 𝕜} {s' s : Nat} (h' : s' < d) (h : s < d) (ha : ∀ x < d, ∀ y < d, a x y = a' x y) (hb : ∀ x < d, ∀ y < d, b x y = b' x y) :
    mulOp d a b s' s = mulOp d a' b' s' s := by
  unfold mulOp
  refine sum_congr rfl fun x hx => ?_
  have hx' : x < d := by simpa using hx
  rw [ha _ h' _ hx', hb _ hx' _ h]

/-- The product of the two operators, site by site. -/
def pair (q : Input 𝕜) (dd : Int → Nat) (i j : Int) : Int → Op 𝕜 := fun k => mulOp (dd k) (jw q.f1 q.F q.op1 i k) (jw q.f2 q.F q.op2 j k)

/-- What the operators have to satisfy: on all sites, if they are fermionic. -/
def SignOK (q : Input 𝕜) (dd : Int → Nat) (N : Nat) : Prop := q.f2 = true → ∀ k : Int, 1 ≤ k → k ≤ N → FermiOK (dd k) (q.F k) (q.op2 k)

/-- The second operator is, up to a number, the conjugate of the first. -/
def ConjOK (q : Input 𝕜) (dd : Int → Nat) (N : Nat) : Prop :=
  ∃ c : ℝ, c ≠ 0 ∧ ∀ k : Int, 1 ≤ k → k ≤ N → ∀ s' < dd k, ∀ s < dd k, q.op2 k s' s = (c : 𝕜) * (starRingEnd 𝕜) (q.op1 k s s')

theorem upper_eq {q : Input 𝕜} {dd : Int → Nat} {N : Nat} (hf : q.f1 = q.f2) (hs : SignOK q dd N) (φ : (Int → Nat) → 𝕜) {i j : Int} (hij : i < j) :
    val dd N φ (bond q.f2 q.F (upOp q (dd i) i) q.op2 i j) = val dd N φ (pair q dd i j) := by
  refine val_congr fun k k1 k2 s' h' s h => ?_
  unfold bond strP pair upOp jw
  rw [hf]
  rcases lt_trichotomy k i with e | e | e
  · have e1 : k ≠ i := by omega
    have e2 : k < j := by omega
    have e3 : k ≠ j := by omega
    by_cases f : q.f2 = true
    · simp [e, e1, e2, e3, f, (hs f k k1 k2).inv s' h' s h]
    · simp [e, e1, e2, e3, f, one_mulOp h']
  · subst e
    have e3 : k ≠ j := by omega
    by_cases f : q.f2 = true
    · simp [hij, e3, f]
    · simp [hij, e3, f, mulOp_one h]
  · have e1 : k ≠ i := by omega
    have e2 : ¬ k < i := by omega
    rcases lt_trichotomy k j with g | g | g
    · have g3 : k ≠ j := by omega
      by_cases f : q.f2 = true
      · simp [e1, e2, g, g3, f, one_mulOp h']
      · simp [e1, e2, g, g3, f, one_mulOp h']
    · have g3 : ¬ k < j := by omega
      simp [e1, e2, ← g, one_mulOp h']
    · have g3 : k ≠ j := by omega
      have g4 : ¬ k < j := by omega
      simp [e1, e2, g3, g4, one_mulOp h']

theorem lower_eq {q : Input 𝕜} {dd : Int → Nat} {N : Nat} (hf : q.f1 = q.f2) (hs : SignOK q dd N) (φ : (Int → Nat) → 𝕜) {i j : Int} (hij : j < i) :
    val dd N φ (bond q.f1 q.F (lowOp q (dd j) j) q.op1 j i) = val dd N φ (pair q dd i j) := by
  refine val_congr fun k k1 k2 s' h' s h => ?_
  unfold bond strP pair lowOp jw
  rw [hf]
  rcases lt_trichotomy k j with e | e | e
  · have e1 : k ≠ j := by omega
    have e2 : k < i := by omega
    have e3 : k ≠ i := by omega
    by_cases f : q.f2 = true
    · simp [e, e1, e2, e3, f, (hs f k k1 k2).inv s' h' s h]
    · simp [e, e1, e2, e3, f, one_mulOp h']
  · subst e
    have e3 : k ≠ i := by omega
    by_cases f : q.f2 = true
    · simp [hij, e3, f, (hs f k k1 k2).anti s' h' s h]
    · simp [hij, e3, f, one_mulOp h']
  · have e1 : k ≠ j := by omega
    have e2 : ¬ k < j := by omega
    rcases lt_trichotomy k i with g | g | g
    · have g3 : k ≠ i := by omega
      by_cases f : q.f2 = true
      · simp [e1, e2, g, g3, f, mulOp_one h]
      · simp [e1, e2, g, g3, f, mulOp_one h]
    · have g3 : ¬ k < i := by omega
      simp [e1, e2, ← g, mulOp_one h]
    · have g3 : k ≠ i := by omega
      have g4 : ¬ k < i := by omega
      simp [e1, e2, g3, g4, mulOp_one h]

theorem diag_eq {q : Input 𝕜} {dd : Int → Nat} {N : Nat} (hf : q.f1 = q.f2) (hs : SignOK q dd N) (φ : (Int → Nat) → 𝕜) (i : Int) :
    (val dd N φ fun k => if k = i then mulOp (dd i) (q.op1 i) (q.op2 i) else one) = val dd N φ (pair q dd i i) := by
  refine val_congr fun k k1 k2 s' h' s h => ?_
  unfold pair jw
  rw [hf]
  by_cases e : k = i
  · subst e
    simp
  · by_cases f : q.f2 = true ∧ k < i
    · simp [e, f, (hs f.1 k k1 k2).inv s' h' s h]
    · simp only [e, f, if_false, one_mulOp h']

theorem one_conj {s' s : Nat} : (starRingEnd 𝕜) (one s s') = (one s' s : 𝕜) := by
  unfold one
  by_cases h : s = s'
  · rw [if_pos h, if_pos h.symm, map_one]
  · rw [if_neg h, if_neg (Ne.symm h), map_zero]

theorem pair_conj {q : Input 𝕜} {dd : Int → Nat} {N : Nat} (hf : q.f1 = q.f2) (hs : SignOK q dd N) (hc : ConjOK q dd N) (φ : (Int → Nat) → 𝕜) {i j : Int} (hij : i ≠ j)
    (i1 : 1 ≤ i) (i2 : i ≤ N) (j1 : 1 ≤ j) (j2 : j ≤ N) : (starRingEnd 𝕜) (val dd N φ (pair q dd i j)) = val dd N φ (pair q dd j i) := by
  obtain ⟨c, c0, hc⟩ := hc
  have c0' : (c : 𝕜) ≠ 0 := by exact_mod_cast c0
  rw [val_conj]
  have str : ∀ k : Int, 1 ≤ k → k ≤ N → ∀ m, ∀ x < dd k, ∀ y < dd k, (starRingEnd 𝕜) ((if q.f2 = true ∧ k < m then q.F k else one) y x) = (if q.f2 = true ∧ k < m then q.F k else one) x y := by
    intro k k1 k2 m x hx y hy
    by_cases f : q.f2 = true ∧ k < m
    · rw [if_pos f]; exact ((hs f.1 k k1 k2).herm x hx y hy).symm
    · rw [if_neg f]; exact one_conj
  have o2 : ∀ k : Int, 1 ≤ k → k ≤ N → ∀ x < dd k, ∀ y < dd k, (starRingEnd 𝕜) (q.op2 k y x) = (c : 𝕜) * q.op1 k x y := by
    intro k k1 k2 x hx y hy
    rw [hc k k1 k2 y hy x hx, map_mul, RCLike.conj_ofReal, RCLike.conj_conj]
  refine mul_left_cancel₀ c0' ?_
  let T : Int → Op 𝕜 := fun k s' s => (if k = i then (c : 𝕜) else 1) * (starRingEnd 𝕜) (pair q dd i j k s s')
  have e1 : val dd N φ T = (c : 𝕜) * val dd N φ fun k s' s => (starRingEnd 𝕜) (pair q dd i j k s s') := by
    refine val_smul i1 i2 (fun s' _ s _ => ?_) fun k _ _ hk s' _ s _ => ?_
    · simp only [T]; rw [if_pos trivial]
    · simp only [T]; rw [if_neg hk, one_mul]
  rw [← e1]
  refine val_smul j1 j2 (fun s' h' s h => ?_) fun k k1 k2 hk s' h' s h => ?_
  · simp only [T]
    rw [if_neg (Ne.symm hij), one_mul]
    unfold pair jw
    rw [hf, mulOp_conj, if_pos rfl, if_pos rfl, if_neg (Ne.symm hij), if_neg (Ne.symm hij)]
    have : ∀ a b : Op 𝕜, (c : 𝕜) * mulOp (dd j) a b s' s = mulOp (dd j) (fun x y => (c : 𝕜) * a x y) b s' s := by
      intro a b
      unfold mulOp
      rw [mul_sum]
      exact sum_congr rfl fun x _ => by ring
    rw [this]
    exact mulOp_congr h' h (fun x hx y hy => o2 j j1 j2 x hx y hy) (str j j1 j2 i)
  · simp only [T]
    unfold pair jw
    rw [hf, mulOp_conj, if_neg hk, if_neg hk]
    by_cases e : k = i
    · subst e
      rw [if_pos rfl, if_pos rfl, if_pos rfl]
      have : ∀ a b : Op 𝕜, (c : 𝕜) * mulOp (dd k) a b s' s = mulOp (dd k) a (fun x y => (c : 𝕜) * b x y) s' s := by
        intro a b
        unfold mulOp
        rw [mul_sum]
        exact sum_congr rfl fun x _ => by ring
      rw [this]
      exact mulOp_congr h' h (str k k1 k2 j) fun x hx y hy => (hc k k1 k2 x hx y hy).symm
    · rw [if_neg e, if_neg e, if_neg e, one_mul]
      exact mulOp_congr h' h (str k k1 k2 j) (str k k1 k2 i)

theorem entry_eq {q : Input 𝕜} {herm : Bool} {dd : Int → Nat} {N : Nat} (hf : q.f1 = q.f2) (hs : SignOK q dd N) (hh : herm = true → ConjOK q dd N) (φ : (Int → Nat) → 𝕜) {i j : Int}
    (i1 : 1 ≤ i) (i2 : i ≤ N) (j1 : 1 ≤ j) (j2 : j ≤ N) : entry q herm dd N φ i j = val dd N φ (pair q dd i j) := by
  unfold entry
  rcases lt_trichotomy i j with e | e | e
  · rw [if_neg (by omega), if_pos e, upper_eq hf hs φ e]
  · subst e
    rw [if_pos rfl, diag_eq hf hs]
  · rw [if_neg (by omega), if_neg (by omega)]
    by_cases h : herm = true
    · rw [if_pos h, upper_eq hf hs φ e, pair_conj hf hs (hh h) φ (by omega) j1 j2 i1 i2]
    · rw [if_neg h, lower_eq hf hs φ e]

/-! ## The state -/

theorem position_all {dd : Int → Nat} {o : Ops (Site 𝕜)} (ho : GaugeOK o) {psi : MPS (Site 𝕜)} (hs : Sound o LO RO psi) (hc : Chain psi.N dd psi.t) {i : Int} (h1 : 1 ≤ i) (h2 : i ≤ psi.N) :
    ∃ psi', position o psi i = .ok psi' ∧ Sound o LO RO psi' ∧ psi'.N = psi.N ∧ psi'.l = i - 1 ∧ psi'.r = i + 1 ∧ Chain psi.N dd psi'.t ∧
      (∀ P, val dd psi.N (wave psi'.t psi.N) P = val dd psi.N (wave psi.t psi.N) P) ∧ normSq dd psi.N (wave psi'.t psi.N) = normSq dd psi.N (wave psi.t psi.N) := by
  obtain ⟨psi', e, g1, g2, g3, g4, -⟩ := positionWith_spec (sL := stepL o) (sR := stepR o) (i := i) (Q := fun _ => True) ho.factor
    (fun s h hl => stepL_eq h hl) (fun s h hl => stepR_eq h hl) (fun _ _ _ _ => trivial) (fun _ _ _ _ => trivial) hs h1 h2 trivial
  have e' : position o psi i = .ok psi' := e
  refine ⟨psi', e', g1, g2, g3, g4, ?_, fun P => ?_, ?_⟩
  · obtain ⟨p, a1, -, a2, -⟩ := position_value (M := idM) ho hs rfl hc h1 h2
    rw [e'] at a1
    cases a1
    exact a2
  · obtain ⟨p, a1, -, -, a2, -⟩ := position_value (M := prodM P) ho hs rfl hc h1 h2
    rw [e'] at a1
    cases a1
    exact a2
  · obtain ⟨p, a1, -, -, -, a2⟩ := position_value (M := idM) ho hs rfl hc h1 h2
    rw [e'] at a1
    cases a1
    exact a2

theorem matrix_core {dd : Int → Nat} {o : Ops (Site 𝕜)} (ho : GaugeOK o) {psi psi0 : MPS (Site 𝕜)} {orth : MPS (Site 𝕜) → Res (MPS (Site 𝕜))}
    (h0 : (if isOrtho psi then Res.ok psi else orth psi) = .ok psi0) (hN : psi0.N = psi.N) (hs : Sound o LO RO psi0) (hc : Chain psi.N dd psi0.t)
    {q : Input 𝕜} (hf : q.f1 = q.f2) {a e : Int} (h1 : 1 ≤ (fixRange a e psi.N).1) (h2 : (fixRange a e psi.N).1 ≤ psi.N) (h3 : (fixRange a e psi.N).2 ≤ psi.N + 1) :
    ∃ C, correlationMatrix o orth q a e psi = .ok (((fixRange a e psi.N).2 - (fixRange a e psi.N).1).toNat, C) ∧
      ∀ x y : Nat, (fixRange a e psi.N).1 + x < (fixRange a e psi.N).2 → (fixRange a e psi.N).1 + y < (fixRange a e psi.N).2 →
        C x y = entry q (isHerm q (psi.t 1).d) dd psi.N (wave psi0.t psi.N) ((fixRange a e psi.N).1 + x) ((fixRange a e psi.N).1 + y) /
          (normSq dd psi.N (wave psi0.t psi.N) : 𝕜) := by
  generalize hr : fixRange a e psi.N = r at *
  rw [← hN] at hc h2
  obtain ⟨p, e1, s1, n1, l1, r1, c1, v1, m1⟩ := position_all ho hs hc h1 h2
  rw [hN] at n1 c1 v1 m1 h2
  obtain ⟨n, hn⟩ : ∃ n : Nat, r.1 = (n : Int) + 1 := ⟨(r.1 - 1).toNat, by omega⟩
  have hl : ∀ i : Int, 1 ≤ i → i ≤ n → LO (p.t i) := fun i i1 i2 => s1.left i i1 (by omega)
  have hro : ∀ i : Int, r.1 < i → i ≤ psi.N → RO (p.t i) := fun i i1 i2 => s1.right i (by omega) (by omega)
  have hfr : frob (p.t r.1) = normSq dd psi.N (wave psi0.t psi.N) := by
    rw [hn, frob_center c1 (by omega) hl (fun i i1 i2 => hro i (by omega) i2), m1]
  have hsq : Real.sqrt (frob (p.t r.1)) * Real.sqrt (frob (p.t r.1)) = normSq dd psi.N (wave psi0.t psi.N) := by
    rw [hfr, Real.mul_self_sqrt (TEvol.normSq_nonneg _ _ _)]
  unfold correlationMatrix
  dsimp only
  rw [hr, h0, Res.bind_ok, e1, Res.bind_ok, if_neg (by simp [hf]), hsq]
  refine ⟨_, rfl, fun x y hx hy => ?_⟩
  have env := start_env c1 (n := n) (by omega) hl (P := fun _ => one) fun _ _ _ => rfl
  rw [← hn] at env
  have := siteLoop_eq c1 (q := q) (herm := isHerm q (psi.t 1).d) (nrm2 := normSq dd psi.N (wave psi0.t psi.N)) h1 hro (k := (r.2 - r.1).toNat) (n := n) (ci := 0) (by push_cast; omega) (by omega) env
    (C := fun _ _ => 0) (by intro x y _ _ h; omega) x y (by omega) (by omega)
  rw [← hn] at this
  refine this.trans ?_
  congr 1
  unfold entry
  simp only [v1]

/-- The sites asked for: all of them if the range is empty. -/
def Asked (N : Nat) (a e b f : Int) : Prop := (a = e ∧ b = 1 ∧ f = N + 1) ∨ (1 ≤ a ∧ a < e ∧ e ≤ N + 1 ∧ b = a ∧ f = e)

theorem Asked.fix {N : Nat} {a e b f : Int} (h : Asked N a e b f) : fixRange a e N = (b, f) := by
  unfold fixRange
  rcases h with ⟨h, rfl, rfl⟩ | ⟨-, h, -, rfl, rfl⟩
  · rw [if_pos h]
  · rw [if_neg (by omega)]

theorem Asked.bounds {N : Nat} {a e b f : Int} (h : Asked N a e b f) (hN : 1 ≤ N) : 1 ≤ b ∧ b < f ∧ f ≤ N + 1 := by
  rcases h with ⟨h, rfl, rfl⟩ | ⟨h1, h2, h3, rfl, rfl⟩ <;> omega

theorem sound_one {o : Ops (Site 𝕜)} {psi : MPS (Site 𝕜)} (h : Sound o LO RO psi) : 1 ≤ psi.N := by
  have := h.lo
  have := h.gap
  have := h.hi
  omega

/-- The numbers of the matrix are those of the state `φ`. -/
def Right (q : Input 𝕜) (dd : Int → Nat) (N : Nat) (φ : (Int → Nat) → 𝕜) (b f : Int) (C : Nat → Nat → 𝕜) : Prop :=
  ∀ i j : Int, b ≤ i → i < f → b ≤ j → j < f →
    C (i - b).toNat (j - b).toNat = corr dd N φ (tens (jw q.f1 q.F q.op1 i) N) (tens (jw q.f2 q.F q.op2 j) N)

theorem right_core {dd : Int → Nat} {o : Ops (Site 𝕜)} (ho : GaugeOK o) {psi psi0 : MPS (Site 𝕜)} {orth : MPS (Site 𝕜) → Res (MPS (Site 𝕜))}
    (h0 : (if isOrtho psi then Res.ok psi else orth psi) = .ok psi0) (hN : psi0.N = psi.N) (hs : Sound o LO RO psi0) (hc : Chain psi.N dd psi0.t)
    {q : Input 𝕜} (hf : q.f1 = q.f2) (hq : SignOK q dd psi.N) (hh : isHerm q (psi.t 1).d = true → ConjOK q dd psi.N) {a e b f : Int} (hr : Asked psi.N a e b f) :
    ∃ C, correlationMatrix o orth q a e psi = .ok ((f - b).toNat, C) ∧ Right q dd psi.N (wave psi0.t psi.N) b f C := by
  have h1 := (sound_one hs)
  obtain ⟨b1, b2, b3⟩ := hr.bounds (by omega)
  obtain ⟨C, e1, e2⟩ := matrix_core ho h0 hN hs hc hf (a := a) (e := e) (by rw [hr.fix]; exact b1) (by rw [hr.fix]; simp only; omega) (by rw [hr.fix]; exact b3)
  rw [hr.fix] at e1 e2
  refine ⟨C, e1, fun i j i1 i2 j1 j2 => ?_⟩
  have := e2 (i - b).toNat (j - b).toNat (by simp only; omega) (by simp only; omega)
  simp only at this
  rw [this, show b + ((i - b).toNat : Int) = i by omega, show b + ((j - b).toNat : Int) = j by omega, entry_eq hf hq hh _ (by omega) (by omega) (by omega) (by omega), corr_eq]
  rfl

/-- C91. `correlationMatrix` of a state with an orthogonality centre: the element for the sites `i` and `j` is `<op1_i op2_j>`, for bosonic operators and for
fermionic ones, for which the Jordan-Wigner strings are put in. An empty range stands for all sites. Where the matrix is taken as Hermitian (see
`C91_detect_partial`) the second operator has to be the conjugate of the first. Missing: rounding, sites of different kind when it is detected whether the
matrix is Hermitian, ranges which go past the ends. mps.cc:1562-1698 -/
theorem C91_matrix_partial {dd : Int → Nat} {o : Ops (Site 𝕜)} (ho : GaugeOK o) {psi : MPS (Site 𝕜)} (hs : Sound o LO RO psi) (hio : isOrtho psi = true) (hc : Chain psi.N dd psi.t)
    (_hz : normSq dd psi.N (wave psi.t psi.N) ≠ 0) (orth : MPS (Site 𝕜) → Res (MPS (Site 𝕜))) {q : Input 𝕜} (hf : q.f1 = q.f2) (hq : SignOK q dd psi.N)
    (hh : isHerm q (psi.t 1).d = true → ConjOK q dd psi.N) {a e b f : Int} (hr : Asked psi.N a e b f) :
    ∃ C, correlationMatrix o orth q a e psi = .ok ((f - b).toNat, C) ∧ Right q dd psi.N (wave psi.t psi.N) b f C :=
  right_core ho (by rw [if_pos hio]) rfl hs hc hf hq hh hr

theorem done_sound {o : Ops (Site 𝕜)} (ho : GaugeOK o) {opts : ApplyMPO.Opts} {psi psi' : MPS (Site 𝕜)} (hN : 2 ≤ psi.N) (h : Orthog.Done opts psi psi') : Sound o LO RO psi' := by
  refine ⟨by rw [h.left], by rw [h.left, h.right]; rfl, by rw [h.right, h.len]; omega, fun i i1 i2 => by rw [h.left] at i2; omega,
    fun i i1 i2 => h.ro i (by rw [h.right] at i1; exact i1) (by rw [← h.len]; exact i2), fun i i1 i2 => ?_⟩
  rw [ho.link]
  simpa using h.chain.link i i1 (by rw [← h.len]; exact i2)

/-- The same for a state without a centre, which is orthogonalized first: the numbers are those of a state within the cutoff. mps.cc:1589 -/
theorem C91_orthogonalize_partial {o : Ops (Site 𝕜)} (ho : GaugeOK o) {T : ApplyMPO.Tools 𝕜} (hT : ApplyMPO.EigOK T) {opts : ApplyMPO.Opts} (hc0 : 0 ≤ opts.cutoff) (hm : opts.maxdim = none)
    {psi : MPS (Site 𝕜)} (hio : isOrtho psi = false) (h : Orthog.State psi) (hc1 : (psi.N - 1 : Nat) * opts.cutoff < 1) (hz : Orthog.norm2 psi (wave psi.t psi.N) ≠ 0)
    {q : Input 𝕜} (hf : q.f1 = q.f2) (hq : SignOK q (fun i => (psi.t i).d) psi.N) (hh : isHerm q (psi.t 1).d = true → ConjOK q (fun i => (psi.t i).d) psi.N) {a e b f : Int} (hr : Asked psi.N a e b f) :
    ∃ (C : Nat → Nat → 𝕜) (φ : (Int → Nat) → 𝕜), correlationMatrix o (Orthog.orthogonalize T opts) q a e psi = .ok ((f - b).toNat, C) ∧ Right q (fun i => (psi.t i).d) psi.N φ b f C ∧
      Orthog.dist psi (wave psi.t psi.N) φ ≤ (psi.N - 1 : Nat) * (opts.cutoff * Orthog.norm2 psi (wave psi.t psi.N)) ∧ Orthog.norm2 psi φ ≠ 0 := by
  obtain ⟨psi', e1, hd, e2, e3⟩ := Orthog.C76_cutoff_partial hT hc0 hm h
  obtain ⟨C, c1, c2⟩ := right_core (dd := fun i => (psi.t i).d) ho (psi0 := psi') (orth := Orthog.orthogonalize T opts) (psi := psi) (by rw [hio]; exact e1) hd.len (done_sound ho h.len hd) hd.chain hf hq hh hr
  refine ⟨C, wave psi'.t psi.N, c1, c2, e3, fun h0 => ?_⟩
  rw [e2, h0, sub_zero] at e3
  have hp : 0 < Orthog.norm2 psi (wave psi.t psi.N) := lt_of_le_of_ne (TEvol.normSq_nonneg _ _ _) (Ne.symm hz)
  nlinarith

/-- Operators of which one is bosonic are not taken. mps.cc:1600-1605 -/
theorem C91_mixed {dd : Int → Nat} {o : Ops (Site 𝕜)} (ho : GaugeOK o) {psi : MPS (Site 𝕜)} (hs : Sound o LO RO psi) (hio : isOrtho psi = true) (hc : Chain psi.N dd psi.t)
    (orth : MPS (Site 𝕜) → Res (MPS (Site 𝕜))) {q : Input 𝕜} (hf : q.f1 ≠ q.f2) {a e b f : Int} (hr : Asked psi.N a e b f) : correlationMatrix o orth q a e psi = .throw := by
  obtain ⟨b1, b2, b3⟩ := hr.bounds (sound_one hs)
  obtain ⟨p, e1, -⟩ := position_all ho hs hc (i := b) b1 (by omega)
  unfold correlationMatrix
  dsimp only
  rw [hr.fix, if_pos hio, Res.bind_ok, e1, Res.bind_ok, if_pos (by simpa using hf)]

theorem normOp_zero {d : Nat} {a : Op 𝕜} (h : normOp d a = 0) : ∀ s' < d, ∀ s < d, a s' s = 0 := by
  intro s' h' s hs
  have h0 : ∑ s' ∈ range d, ∑ s ∈ range d, ‖a s' s‖ ^ 2 = 0 := (Real.sqrt_eq_zero (by positivity)).1 h
  have h1 := (sum_eq_zero_iff_of_nonneg fun x _ => by positivity).1 h0 s' (by simpa using h')
  have h2 := (sum_eq_zero_iff_of_nonneg fun x _ => by positivity).1 h1 s (by simpa using hs)
  simpa using h2

/-- What is detected: when the names differ, all sites have the same operators, and the two normalized operators are either conjugates or at least `1E-10` apart, a matrix which
is taken as Hermitian is one. mps.cc:1573-1586 -/
theorem C91_detect_partial {q : Input 𝕜} {d N : Nat} (h0 : q.herm = none) (hn : q.same = false) (h1 : ∀ k, q.op1 k = q.op1 1) (h2 : ∀ k, q.op2 k = q.op2 1)
    (he : eps d (q.op1 1) (q.op2 1) = 0 ∨ 1 / 10 ^ 10 ≤ eps d (q.op1 1) (q.op2 1)) (hh : isHerm q d = true) : ConjOK q (fun _ => d) N := by
  unfold isHerm at hh
  rw [h0, hn] at hh
  simp only [Bool.or_false, decide_eq_true_eq] at hh
  obtain ⟨n1, n2, lt⟩ := hh
  have e0 : eps d (q.op1 1) (q.op2 1) = 0 := he.resolve_right (not_le.2 lt)
  refine ⟨normOp d (q.op2 1) / normOp d (q.op1 1), div_ne_zero n2 n1, fun k _ _ s' h' s hs => ?_⟩
  have e1 := normOp_zero e0 s hs s' h'
  have m1 : (normOp d (q.op1 1) : 𝕜) ≠ 0 := by exact_mod_cast n1
  have m2 : (normOp d (q.op2 1) : 𝕜) ≠ 0 := by exact_mod_cast n2
  rw [h1 k, h2 k]
  have e2 : (q.op1 1) s s' = (normOp d (q.op1 1) : 𝕜) * (starRingEnd 𝕜) (q.op2 1 s' s / (normOp d (q.op2 1) : 𝕜)) := by
    rw [← sub_eq_zero.1 e1]
    field_simp
  rw [e2, map_mul, RCLike.conj_conj, RCLike.conj_ofReal]
  push_cast
  field_simp

/-! ## Expectation values -/

/-- The operator `o` of site `i` and nothing else. -/
def single (o : Int → Op 𝕜) (i : Int) : Int → Op 𝕜 := fun k => if k = i then o k else one

theorem expect1_eq {N : Nat} {dd : Int → Nat} {t : Int → Site 𝕜} (c : Chain N dd t) {n : Nat} (hn : n < N) (hl : ∀ i : Int, 1 ≤ i → i ≤ n → LO (t i))
    (hr : ∀ i : Int, (n : Int) + 1 < i → i ≤ N → RO (t i)) (x : Int → Op 𝕜) : expect1 (t (n + 1)) (x (n + 1)) = val dd N (wave t N) (single x (n + 1)) := by
  have e := total_eq c (P := single x (n + 1)) (n := n) (j := N - (n + 1)) (by omega)
    (start_env c hn hl fun i _ i2 => by unfold single; rw [if_neg (by omega)]) hr fun i i1 _ s' _ s _ => by unfold single; rw [if_neg (by omega)]
  rw [← e]
  unfold expect1
  rw [show single x ((n : Int) + 1) ((n : Int) + 1) = x (n + 1) by unfold single; rw [if_pos rfl]]
  unfold total
  refine sum_congr rfl fun a ha => sum_congr rfl fun s _ => sum_congr rfl fun b _ => congrArg (· * _) ?_
  unfold onSite
  refine sum_congr rfl fun s2 _ => congrArg (· * _) ?_
  exact (mulL_start c ha).symm

theorem expectLoop_eq {dd : Int → Nat} {o : Ops (Site 𝕜)} (ho : GaugeOK o) (ops : List (Int → Op 𝕜)) : ∀ (is : List Int) {psi : MPS (Site 𝕜)}, Sound o LO RO psi → Chain psi.N dd psi.t →
    (∀ i ∈ is, 1 ≤ i ∧ i ≤ psi.N) → expectLoop o ops is psi = .ok (is.map fun i => ops.map fun x => val dd psi.N (wave psi.t psi.N) (single x i)) := by
  intro is
  induction is with
  | nil => intro psi _ _ _; rfl
  | cons i is ih =>
    intro psi hs hc hi
    obtain ⟨i1, i2⟩ := hi i (by simp)
    obtain ⟨p, e1, s1, n1, l1, r1, c1, v1, m1⟩ := position_all ho hs hc i1 i2
    rw [expectLoop, e1, Res.bind_ok, ih s1 (by rw [n1]; exact c1) (by rw [n1]; exact fun j hj => hi j (by simp [hj])), Res.bind_ok, n1]
    simp only [v1, List.map_cons]
    congr 2
    refine List.map_congr_left fun x _ => ?_
    obtain ⟨n, rfl⟩ : ∃ n : Nat, i = (n : Int) + 1 := ⟨(i - 1).toNat, by omega⟩
    rw [expect1_eq c1 (by omega) (fun j j1 j2 => s1.left j j1 (by omega)) (fun j j1 j2 => s1.right j (by omega) (by omega)), v1]

theorem val_scale (dd : Int → Nat) (N : Nat) (x : ℝ) (φ : (Int → Nat) → 𝕜) (P : Int → Op 𝕜) : val dd N (fun σ => (x : 𝕜) * φ σ) P = ((x ^ 2 : ℝ) : 𝕜) * val dd N φ P := by
  unfold val sandwich elem
  rw [← sumCfg_mul]
  refine sumCfg_congr fun σ' _ _ => ?_
  rw [← sumCfg_mul]
  refine sumCfg_congr fun σ _ _ => ?_
  rw [map_mul, RCLike.conj_ofReal]
  push_cast
  ring

theorem normalize_all {dd : Int → Nat} {o : Ops (Site 𝕜)} (ho : GaugeOK o) {psi : MPS (Site 𝕜)} (hs : Sound o LO RO psi) (hc : Chain psi.N dd psi.t) (hio : isOrtho psi = true)
    (hz : 1 / 10 ^ 20 ≤ Real.sqrt (normSq dd psi.N (wave psi.t psi.N))) :
    ∃ psi', TEvol.normalize psi = .ok (psi', Real.sqrt (normSq dd psi.N (wave psi.t psi.N))) ∧ Sound o LO RO psi' ∧ psi'.N = psi.N ∧ Chain psi.N dd psi'.t ∧
      wave psi'.t psi.N = fun σ => ((1 / Real.sqrt (normSq dd psi.N (wave psi.t psi.N)) : ℝ) : 𝕜) * wave psi.t psi.N σ := by
  have lk : ∀ a b, o.link a b = true ↔ a.r = b.l := fun a b => by rw [ho.link]; simp
  have hlo := hs.lo
  have hgap := hs.gap
  have hhi := hs.hi
  have hlr : psi.l + 1 = psi.r - 1 := by simpa [isOrtho] using hio
  obtain ⟨n, hn⟩ : ∃ n : Nat, psi.l = n := ⟨psi.l.toNat, by omega⟩
  have hfr : frob (psi.t (psi.l + 1)) = normSq dd psi.N (wave psi.t psi.N) := by
    rw [hn]
    exact frob_center hc (by omega) (fun i i1 i2 => hs.left i i1 (by omega)) fun i i1 i2 => hs.right i (by omega) i2
  generalize hν : Real.sqrt (normSq dd psi.N (wave psi.t psi.N)) = ν at *
  have hν0 : 0 ≤ ν := by rw [← hν]; exact Real.sqrt_nonneg _
  have e : scale psi (TEvol.mulSite ((1 / ν : ℝ) : 𝕜)) = .ok { psi with t := Function.update psi.t (psi.l + 1) (TEvol.mulSite ((1 / ν : ℝ) : 𝕜) (psi.t (psi.l + 1))) } := by
    unfold scale ref
    dsimp only
    rw [if_neg (show ¬ psi.l + 1 < 0 by omega), if_pos (by omega)]
    simp only [Res.bind_ok]
    rw [if_neg (by omega), if_neg (by omega)]
  refine ⟨{ psi with t := Function.update psi.t (psi.l + 1) (TEvol.mulSite ((1 / ν : ℝ) : 𝕜) (psi.t (psi.l + 1))) }, ?_, ?_, rfl, ?_, ?_⟩
  · unfold TEvol.normalize TEvol.norm orthoCenter
    rw [if_pos hio, Res.bind_ok, Res.bind_ok, hfr, hν, if_neg (by rw [abs_of_nonneg hν0]; exact not_lt.2 hz), e]
    rfl
  · refine call_sound ho.factor hs (c := .scale (TEvol.mulSite ((1 / ν : ℝ) : 𝕜))) ⟨?_, ?_⟩ e
    · intro a b h; rw [lk] at h ⊢; exact h
    · intro a b h; rw [lk] at h ⊢; exact h
  · have hm : ∀ i, (Function.update psi.t (psi.l + 1) (TEvol.mulSite ((1 / ν : ℝ) : 𝕜) (psi.t (psi.l + 1))) i).l = (psi.t i).l ∧
        (Function.update psi.t (psi.l + 1) (TEvol.mulSite ((1 / ν : ℝ) : 𝕜) (psi.t (psi.l + 1))) i).d = (psi.t i).d ∧
        (Function.update psi.t (psi.l + 1) (TEvol.mulSite ((1 / ν : ℝ) : 𝕜) (psi.t (psi.l + 1))) i).r = (psi.t i).r := by
      intro i
      by_cases h : i = psi.l + 1
      · subst h; rw [Function.update_self]; exact ⟨rfl, rfl, rfl⟩
      · rw [Function.update_of_ne h]; exact ⟨rfl, rfl, rfl⟩
    refine ⟨?_, ?_, ?_, ?_⟩
    · rw [(hm _).1]; exact hc.first
    · rw [(hm _).2.2]; exact hc.last
    · intro i i1 i2; rw [(hm _).2.1]; exact hc.site i i1 i2
    · intro i i1 i2; rw [(hm _).2.2, (hm _).1]; exact hc.link i i1 i2
  · funext σ
    exact TEvol.wave_scale hc (by omega) (by omega) _ σ

theorem expect_core {dd : Int → Nat} {o : Ops (Site 𝕜)} (ho : GaugeOK o) {psi psi0 : MPS (Site 𝕜)} {orth : MPS (Site 𝕜) → Res (MPS (Site 𝕜))}
    (h0 : (if isOrtho psi then Res.ok psi else orth psi) = .ok psi0) (hN : psi0.N = psi.N) (hs : Sound o LO RO psi0) (hio : isOrtho psi0 = true) (hc : Chain psi.N dd psi0.t)
    (hz : 1 / 10 ^ 20 ≤ Real.sqrt (normSq dd psi.N (wave psi0.t psi.N))) (ops : List (Int → Op 𝕜)) {is : List Int} (hi : ∀ i ∈ is, 1 ≤ i ∧ i ≤ psi.N) :
    expect o orth ops is psi = .ok (is.map fun i => ops.map fun x => expv dd psi.N (wave psi0.t psi.N) (tens (single x i) psi.N)) := by
  unfold expect
  rw [← hN] at hc hz
  obtain ⟨p, e1, s1, n1, c1, w1⟩ := normalize_all ho hs hc hio hz
  rw [h0, Res.bind_ok, e1, Res.bind_ok, expectLoop_eq ho ops is s1 (by rw [n1]; exact c1) (by rw [n1, hN]; exact hi), n1, w1, ← hN]
  congr 1
  refine List.map_congr_left fun i _ => List.map_congr_left fun x _ => ?_
  rw [val_scale, expv_eq]
  have hp : 0 ≤ normSq dd psi0.N (wave psi0.t psi0.N) := TEvol.normSq_nonneg _ _ _
  rw [div_pow, one_pow, Real.sq_sqrt hp]
  push_cast
  rw [one_div, mul_comm, div_eq_mul_inv]

/-- C92. `expect` of a state with an orthogonality centre: for every site asked for, in any order, and every operator the expectation value, whatever the norm of the state.
Missing: rounding; states whose norm is below `1E-20`, for which there is an error (`C92_small_counterexample`). mps.h:890-920 -/
theorem C92_expect_partial {dd : Int → Nat} {o : Ops (Site 𝕜)} (ho : GaugeOK o) {psi : MPS (Site 𝕜)} (hs : Sound o LO RO psi) (hio : isOrtho psi = true) (hc : Chain psi.N dd psi.t)
    (hz : 1 / 10 ^ 20 ≤ Real.sqrt (normSq dd psi.N (wave psi.t psi.N))) (orth : MPS (Site 𝕜) → Res (MPS (Site 𝕜))) (ops : List (Int → Op 𝕜)) {is : List Int} (hi : ∀ i ∈ is, 1 ≤ i ∧ i ≤ psi.N) :
    expect o orth ops is psi = .ok (is.map fun i => ops.map fun x => expv dd psi.N (wave psi.t psi.N) (tens (single x i) psi.N)) :=
  expect_core ho (by rw [if_pos hio]) rfl hs hio hc hz ops hi

/-- The same for a state without a centre: the numbers are those of a state within the cutoff. mps.h:897 -/
theorem C92_orthogonalize_partial {o : Ops (Site 𝕜)} (ho : GaugeOK o) {T : ApplyMPO.Tools 𝕜} (hT : ApplyMPO.EigOK T) {opts : ApplyMPO.Opts} (hc0 : 0 ≤ opts.cutoff) (hm : opts.maxdim = none)
    {psi : MPS (Site 𝕜)} (hio : isOrtho psi = false) (h : Orthog.State psi) (hc1 : (psi.N - 1 : Nat) * opts.cutoff ≤ 1 / 2) (hz : 1 / 10 ^ 39 ≤ Orthog.norm2 psi (wave psi.t psi.N))
    (ops : List (Int → Op 𝕜)) {is : List Int} (hi : ∀ i ∈ is, 1 ≤ i ∧ i ≤ psi.N) :
    ∃ φ : (Int → Nat) → 𝕜, expect o (Orthog.orthogonalize T opts) ops is psi =
        .ok (is.map fun i => ops.map fun x => expv (fun i => (psi.t i).d) psi.N φ (tens (single x i) psi.N)) ∧
      Orthog.dist psi (wave psi.t psi.N) φ ≤ (psi.N - 1 : Nat) * (opts.cutoff * Orthog.norm2 psi (wave psi.t psi.N)) := by
  obtain ⟨psi', e1, hd, e2, e3⟩ := Orthog.C76_cutoff_partial hT hc0 hm h
  refine ⟨wave psi'.t psi.N, expect_core (dd := fun i => (psi.t i).d) ho (psi0 := psi') (by rw [hio]; exact e1) hd.len (done_sound ho h.len hd)
    (by simp [isOrtho, hd.left, hd.right]) hd.chain ?_ ops hi, e3⟩
  rw [e2] at e3
  refine Real.le_sqrt_of_sq_le ?_
  have e4 : Orthog.norm2 psi (wave psi'.t psi.N) = normSq (fun i => (psi.t i).d) psi.N (wave psi'.t psi.N) := rfl
  rw [← e4]
  nlinarith

/-- The same for a range of sites; an empty one stands for all sites. mps.h:925-936 -/
theorem C92_range_partial {dd : Int → Nat} {o : Ops (Site 𝕜)} (ho : GaugeOK o) {psi : MPS (Site 𝕜)} (hs : Sound o LO RO psi) (hio : isOrtho psi = true) (hc : Chain psi.N dd psi.t)
    (hz : 1 / 10 ^ 20 ≤ Real.sqrt (normSq dd psi.N (wave psi.t psi.N))) (orth : MPS (Site 𝕜) → Res (MPS (Site 𝕜))) (ops : List (Int → Op 𝕜)) {a e b f : Int} (hr : Asked psi.N a e b f) :
    ∃ rows, expectRange o orth ops a e psi = .ok rows ∧ rows.length = (f - b).toNat ∧
      ∀ i : Int, b ≤ i → i < f → rows[(i - b).toNat]? = some (ops.map fun x => expv dd psi.N (wave psi.t psi.N) (tens (single x i) psi.N)) := by
  obtain ⟨b1, b2, b3⟩ := hr.bounds (sound_one hs)
  unfold expectRange
  dsimp only
  rw [hr.fix, C92_expect_partial ho hs hio hc hz orth ops (is := (List.range (f - b).toNat).map fun m : Nat => b + m) (by
    intro i hi
    simp only [List.mem_map, List.mem_range] at hi
    obtain ⟨m, hm, rfl⟩ := hi
    omega)]
  refine ⟨_, rfl, by simp, fun i i1 i2 => ?_⟩
  rw [List.map_map, List.getElem?_map, List.getElem?_range (by omega)]
  simp only [Option.map_some, Function.comp_apply]
  rw [show b + ((i - b).toNat : Int) = i by omega]

end Verif.Correl
