import Verif.MPS.CorrelC91

/-! # C91, C92: what goes wrong, and examples -/

noncomputable section

namespace Verif.Correl

open Finset Verif.Limits
open Verif.DmrgNum

variable {𝕜 : Type*} [RCLike 𝕜]

/-- The lowering operator of a site with two states. -/
def low : Op 𝕜 := fun s' s => if s' = 0 ∧ s = 1 then 1 else 0

/-- The raising operator. -/
def rai : Op 𝕜 := fun s' s => if s' = 1 ∧ s = 0 then 1 else 0

/-- The operator `F` of a site with two states. -/
def sgn : Op 𝕜 := fun s' s => if s' = s then (if s = 0 then 1 else -1) else 0

/-- The number of particles. -/
def num : Op 𝕜 := fun s' s => if s' = 1 ∧ s = 1 then 1 else 0

theorem sgn_low : FermiOK 2 sgn (low (𝕜 := 𝕜)) := by
  refine ⟨?_, ?_, ?_⟩ <;> intro s' h' s h <;> interval_cases s' <;> interval_cases s <;> simp [mulOp, sgn, low, one, sum_range_succ]

/-- `|00⟩ + x|11⟩`. -/
def two (x : 𝕜) (i : Int) : Site 𝕜 := if i = 1 then ⟨1, 2, 2, fun _ s c => if s = c then (if s = 0 then 1 else x) else 0⟩ else ⟨2, 2, 1, fun a s _ => if a = s then 1 else 0⟩

theorem two_chain (x : 𝕜) : Chain 2 (fun _ => 2) (two x) := by
  refine ⟨by simp [two], by simp [two], fun i _ _ => ?_, fun i h1 h2 => ?_⟩
  · unfold two; split_ifs <;> rfl
  · obtain rfl : i = 1 := by push_cast at h2; omega
    simp [two]

theorem two_sound (x : 𝕜) {o : Ops (Site 𝕜)} (ho : GaugeOK o) : Sound o LO RO (⟨2, two x, 0, 2⟩ : MPS (Site 𝕜)) := by
  refine ⟨le_rfl, le_rfl, by norm_num, fun i h1 h2 => by simp only at h2; omega, fun i h1 h2 => ?_, fun i h1 h2 => ?_⟩
  · obtain rfl : i = 2 := by simp only at h1 h2; push_cast at h2; omega
    intro a ha a' ha'
    simp [two] at ha ha'
    interval_cases a <;> interval_cases a' <;> simp [two, sum_range_succ]
  · rw [ho.link]
    simpa using (two_chain x).link i h1 h2

theorem two_norm (x : 𝕜) : normSq (fun _ => 2) 2 (wave (two x) 2) = 1 + ‖x‖ ^ 2 := by
  simp [normSq, sumCfg, wave, amp, two, sum_range_succ, Function.update]

/-- Two operators of the same name. -/
def sameIn (f : Bool) : Input 𝕜 := ⟨fun _ => low, fun _ => low, fun _ => sgn, f, f, true, none⟩

theorem same_matrix (f : Bool) (x : 𝕜) {o : Ops (Site 𝕜)} (ho : GaugeOK o) (orth : MPS (Site 𝕜) → Res (MPS (Site 𝕜))) :
    ∃ C, correlationMatrix o orth (sameIn f) 1 3 ⟨2, two x, 0, 2⟩ = .ok (2, C) ∧
      C 1 0 = (starRingEnd 𝕜) (corr (fun _ => 2) 2 (wave (two x) 2) (tens (jw f (fun _ => sgn) (fun _ => low) 1) 2) (tens (jw f (fun _ => sgn) (fun _ => low) 2) 2)) := by
  obtain ⟨C, e1, e2⟩ := matrix_core (psi := ⟨2, two x, 0, 2⟩) (orth := orth) ho (by simp [isOrtho]) rfl (two_sound x ho) (two_chain x) (q := sameIn f) rfl (a := 1) (e := 3)
    (by simp [fixRange]) (by simp [fixRange]) (by simp [fixRange])
  refine ⟨C, by simpa [fixRange] using e1, ?_⟩
  have hs : SignOK (sameIn (𝕜 := 𝕜) f) (fun _ => 2) 2 := fun _ _ _ _ => sgn_low
  have e4 : ∀ φ, entry (sameIn (𝕜 := 𝕜) f) true (fun _ => 2) 2 φ 2 1 = (starRingEnd 𝕜) (val (fun _ => 2) 2 φ (pair (sameIn f) (fun _ => 2) 1 2)) := by
    intro φ
    unfold entry
    rw [if_neg (by norm_num), if_neg (by norm_num), if_pos rfl, upper_eq rfl hs φ (by norm_num)]
  have eh : isHerm (sameIn (𝕜 := 𝕜) f) (two x 1).d = true := by simp [isHerm, sameIn]
  have er : fixRange 1 3 2 = (1, 3) := by simp [fixRange]
  have e3 := e2 1 0
  dsimp only at e3
  rw [er, eh] at e3
  have e5 := e3 (by norm_num) (by norm_num)
  dsimp only at e5
  rw [show (1 : Int) + ((1 : Nat) : Int) = 2 by norm_num, show (1 : Int) + ((0 : Nat) : Int) = 1 by norm_num, e4] at e5
  rw [e5, corr_eq, map_div₀, RCLike.conj_ofReal]
  rfl

/-- Two operators of the same name are taken to give a Hermitian matrix. For the fermionic operator `C` the numbers `<C_1 C_2>` and `<C_2 C_1>` of `|00⟩+|11⟩` are `-1/2` and
`1/2`; the matrix has `-1/2` for both. mps.cc:1576-1577 -/
theorem C91_same_counterexample {o : Ops (Site 𝕜)} (ho : GaugeOK o) (orth : MPS (Site 𝕜) → Res (MPS (Site 𝕜))) :
    ∃ C, correlationMatrix o orth (sameIn true) 1 3 ⟨2, two (1 : 𝕜), 0, 2⟩ = .ok (2, C) ∧ C 1 0 = -1 / 2 ∧
      corr (fun _ => 2) 2 (wave (two (1 : 𝕜)) 2) (tens (jw true (fun _ => sgn) (fun _ => low) 2) 2) (tens (jw true (fun _ => sgn) (fun _ => low) 1) 2) = 1 / 2 := by
  obtain ⟨C, e1, e2⟩ := same_matrix true (1 : 𝕜) ho orth
  refine ⟨C, e1, ?_, ?_⟩
  · rw [e2, corr_eq, two_norm]
    simp [val, sandwich, elem, hop_prod, mulOp, sumCfg, wave, amp, two, tens, jw, low, sgn, one, sum_range_succ, prod_range_succ, Function.update]
    norm_num
  · rw [corr_eq, two_norm]
    simp [val, sandwich, elem, hop_prod, mulOp, sumCfg, wave, amp, two, tens, jw, low, sgn, one, sum_range_succ, prod_range_succ, Function.update]
    norm_num

/-- A bosonic operator: `<S-_2 S-_1>` of `|00⟩+i|11⟩` is `i/2`; the matrix has `-i/2`. -/
theorem C91_same_complex_counterexample {o : Ops (Site ℂ)} (ho : GaugeOK o) (orth : MPS (Site ℂ) → Res (MPS (Site ℂ))) :
    ∃ C, correlationMatrix o orth (sameIn false) 1 3 ⟨2, two Complex.I, 0, 2⟩ = .ok (2, C) ∧ C 1 0 = -Complex.I / 2 ∧
      corr (fun _ => 2) 2 (wave (two Complex.I) 2) (tens (jw false (fun _ => sgn) (fun _ => low) 2) 2) (tens (jw false (fun _ => sgn) (fun _ => low) 1) 2) = Complex.I / 2 := by
  obtain ⟨C, e1, e2⟩ := same_matrix false Complex.I ho orth
  refine ⟨C, e1, ?_, ?_⟩
  · rw [e2, corr_eq, two_norm]
    simp [val, sandwich, elem, hop_prod, mulOp, sumCfg, wave, amp, two, tens, jw, low, sgn, one, sum_range_succ, prod_range_succ, Function.update]
    norm_num
  · rw [corr_eq, two_norm]
    simp [val, sandwich, elem, hop_prod, mulOp, sumCfg, wave, amp, two, tens, jw, low, sgn, one, sum_range_succ, prod_range_succ, Function.update]
    norm_num

/-- A state of small norm has expectation values too, but `expect` ends with an error. mps.cc:168 -/
theorem C92_small_counterexample (o : Ops (Site 𝕜)) (orth : MPS (Site 𝕜) → Res (MPS (Site 𝕜))) :
    let t : Int → Site 𝕜 := fun _ => ⟨1, 2, 1, fun _ s _ => if s = 1 then ((1 / 10 ^ 21 : ℝ) : 𝕜) else 0⟩
    expect o orth [fun _ => num] [1] ⟨1, t, 0, 2⟩ = .throw ∧ expv (fun _ => 2) 1 (wave t 1) (tens (single (fun _ => num) 1) 1) = 1 := by
  intro t
  constructor
  · unfold expect TEvol.normalize TEvol.norm orthoCenter
    rw [if_pos (by simp [isOrtho]), Res.bind_ok, if_pos (by simp [isOrtho]), Res.bind_ok, Res.bind_ok]
    have : Real.sqrt (frob (t 1)) = 1 / 10 ^ 21 := by
      have : frob (t 1) = (1 / 10 ^ 21) ^ 2 := by simp [frob, t, sum_range_succ]
      rw [this, Real.sqrt_sq (by positivity)]
    have e : Real.sqrt (frob (t (0 + 1))) = 1 / 10 ^ 21 := this
    simp only
    rw [e, if_pos (by rw [abs_of_nonneg (by positivity)]; norm_num)]
    rfl
  · have h10 : ((algebraMap ℝ 𝕜) 10 : 𝕜) ≠ 0 := by simp
    simp [expv, normSq, sumCfg, wave, amp, t, tens, single, num, sum_range_succ, Function.update]
    change ((algebraMap ℝ 𝕜) 10 ^ 21)⁻¹ * _ * _ = 1
    field_simp

/-! ## Examples -/

/-- `<Cdag_i C_j>`. -/
def exIn : Input ℂ := ⟨fun _ => rai, fun _ => low, fun _ => sgn, true, true, false, none⟩

theorem exIn_conj : ConjOK exIn (fun _ => 2) 2 := by
  refine ⟨1, one_ne_zero, fun k _ _ s' h' s h => ?_⟩
  simp only [exIn]
  interval_cases s' <;> interval_cases s <;> simp [low, rai]

example : ∃ C, correlationMatrix exOps (fun _ => .throw) exIn 1 1 ⟨2, two 3, 0, 2⟩ = .ok (2, C) ∧ C 0 0 = 9 / 10 ∧ C 1 0 = 0 := by
  obtain ⟨C, e1, e2⟩ := C91_matrix_partial (psi := ⟨2, two 3, 0, 2⟩) exOps_ok (two_sound 3 exOps_ok) (by simp [isOrtho]) (two_chain 3) (by rw [two_norm]; norm_num)
    (fun _ => .throw) (q := exIn) rfl (fun _ _ _ _ => sgn_low) (fun _ => exIn_conj) (a := 1) (e := 1) (b := 1) (f := 3) (Or.inl ⟨rfl, rfl, rfl⟩)
  refine ⟨C, e1, ?_, ?_⟩
  · refine (e2 1 1 (by norm_num) (by norm_num) (by norm_num) (by norm_num)).trans ?_
    rw [corr_eq, two_norm]
    simp [val, sandwich, elem, hop_prod, mulOp, sumCfg, wave, amp, two, tens, jw, exIn, low, rai, sgn, one, sum_range_succ, prod_range_succ, Function.update]
    rw [map_ofNat _ 3]
    norm_num
  · refine (e2 2 1 (by norm_num) (by norm_num) (by norm_num) (by norm_num)).trans ?_
    rw [corr_eq, two_norm]
    simp [val, sandwich, elem, hop_prod, mulOp, sumCfg, wave, amp, two, tens, jw, exIn, low, rai, sgn, one, sum_range_succ, prod_range_succ, Function.update]

/-- A range of a state without a centre. -/
example : ∃ (T : ApplyMPO.Tools ℂ) (C : Nat → Nat → ℂ), correlationMatrix exOps (Orthog.orthogonalize T ⟨1 / 10 ^ 13, none, true, false⟩)
    ⟨fun _ => num, fun _ => num, fun _ => sgn, false, false, true, none⟩ 2 5 ⟨5, Orthog.pair 5, 0, 6⟩ = .ok (3, C) := by
  obtain ⟨T, hT⟩ := ApplyMPO.exists_tools (𝕜 := ℂ)
  obtain ⟨C, φ, e, -⟩ := C91_orthogonalize_partial (psi := ⟨5, Orthog.pair 5, 0, 6⟩) exOps_ok hT (opts := ⟨1 / 10 ^ 13, none, true, false⟩) (by positivity) rfl (by simp [isOrtho])
    (Orthog.pair_state (by norm_num)) (by norm_num) (by
      simp [Orthog.norm2, normSq, sumCfg, wave, amp, Orthog.pair, sum_range_succ, Function.update]) (q := ⟨fun _ => num, fun _ => num, fun _ => sgn, false, false, true, none⟩) rfl (by intro h; simp at h)
    (fun _ => ⟨1, one_ne_zero, fun k _ _ s' _ s _ => by by_cases h : s' = 1 <;> by_cases h2 : s = 1 <;> simp [num, h, h2]⟩)
    (a := 2) (e := 5) (b := 2) (f := 5) (Or.inr ⟨by norm_num, by norm_num, by norm_num, rfl, rfl⟩)
  exact ⟨T, C, e⟩

/-- Creation and annihilation operators are found to be conjugates. -/
example : isHerm exIn 2 = true ∧ ConjOK exIn (fun _ => 2) 7 := by
  have h0 : eps 2 (exIn.op1 1) (exIn.op2 1) = 0 := by simp [eps, normOp, exIn, low, rai, sum_range_succ]
  have h1 : isHerm exIn 2 = true := by
    have : isHerm exIn 2 = (decide (normOp 2 (exIn.op1 1) ≠ 0 ∧ normOp 2 (exIn.op2 1) ≠ 0 ∧ eps 2 (exIn.op1 1) (exIn.op2 1) < 1 / 10 ^ 10) || false) := rfl
    rw [this, h0]
    simp [normOp, exIn, low, rai, sum_range_succ]
  exact ⟨h1, C91_detect_partial rfl rfl (fun _ => rfl) (fun _ => rfl) (Or.inl h0) h1⟩

example : correlationMatrix exOps (fun _ => .throw) ⟨fun _ => rai, fun _ => num, fun _ => sgn, true, false, false, none⟩ 1 3 ⟨2, two (3 : ℂ), 0, 2⟩ = .throw :=
  C91_mixed exOps_ok (two_sound 3 exOps_ok) (by simp [isOrtho]) (two_chain 3) _ (by simp) (b := 1) (f := 3) (Or.inr ⟨by norm_num, by norm_num, by norm_num, rfl, rfl⟩)

example : expect exOps (fun _ => .throw) [fun _ => num, fun _ => sgn] [2, 1] ⟨2, two (3 : ℂ), 0, 2⟩ = .ok [[9 / 10, -8 / 10], [9 / 10, -8 / 10]] := by
  rw [C92_expect_partial (dd := fun _ => 2) exOps_ok (two_sound 3 exOps_ok) (by simp [isOrtho]) (two_chain 3) (by
    refine Real.le_sqrt_of_sq_le ?_
    rw [two_norm]
    norm_num) _ _ (by simp)]
  simp only [List.map_cons, List.map_nil, expv, two_norm]
  simp [sumCfg, wave, amp, two, tens, single, num, sgn, one, sum_range_succ, prod_range_succ, Function.update]
  rw [map_ofNat _ 3]
  norm_num

end Verif.Correl
