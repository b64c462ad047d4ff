import Verif.MPS.LocalMPO
import Mathlib.Data.List.Basic

/-! # The environments of a projected operator belong to the current state -/

namespace Verif.LocalMPO

variable {E A : Type*} (absorb : Int → Option E → A → E)

/-! ## What the environments should be -/

/-- The environment of the sites `1..k`, with boundary tensor `bL`. -/
def leftEnv (bL : Option E) (psi : Int → A) : Nat → Option E
  | 0 => bL
  | k + 1 => some (absorb ((k : Int) + 1) (leftEnv bL psi k) (psi ((k : Int) + 1)))

/-- The environment of the last `j` of the `N` sites, with boundary tensor `bR`. -/
def rightEnv (bR : Option E) (psi : Int → A) (N : Nat) : Nat → Option E
  | 0 => bR
  | j + 1 => some (absorb ((N : Int) - j) (rightEnv bR psi N j) (psi ((N : Int) - j)))

/-- The environment of the sites up to and including `k`. -/
def lE (bL : Option E) (psi : Int → A) (k : Int) : Option E := leftEnv absorb bL psi k.toNat

/-- The environment of the sites from `k` on. -/
def rE (bR : Option E) (psi : Int → A) (N : Nat) (k : Int) : Option E := rightEnv absorb bR psi N ((N : Int) + 1 - k).toNat

variable {absorb}

theorem lE_zero {bL : Option E} {psi : Int → A} : lE absorb bL psi 0 = bL := rfl

theorem lE_succ {bL : Option E} {psi : Int → A} {k : Int} (h : 0 ≤ k) :
    lE absorb bL psi (k + 1) = some (absorb (k + 1) (lE absorb bL psi k) (psi (k + 1))) := by
  obtain ⟨n, rfl⟩ := Int.eq_ofNat_of_zero_le h
  unfold lE
  have : ((n : Int) + 1).toNat = n + 1 := by omega
  rw [this]
  simp [leftEnv]

theorem lE_some {bL : Option E} {psi : Int → A} {k : Int} (h : 1 ≤ k) : ∃ e, lE absorb bL psi k = some e := by
  have : k = (k - 1) + 1 := by ring
  rw [this, lE_succ (by omega)]
  exact ⟨_, rfl⟩

theorem rE_last {bR : Option E} {psi : Int → A} {N : Nat} : rE absorb bR psi N (N + 1) = bR := by
  unfold rE
  simp [rightEnv]

theorem rE_pred {bR : Option E} {psi : Int → A} {N : Nat} {k : Int} (h : k ≤ N + 1) :
    rE absorb bR psi N (k - 1) = some (absorb (k - 1) (rE absorb bR psi N k) (psi (k - 1))) := by
  obtain ⟨n, hn⟩ := Int.eq_ofNat_of_zero_le (show 0 ≤ (N : Int) + 1 - k by omega)
  have hk : k = (N : Int) + 1 - n := by omega
  subst hk
  unfold rE
  have e1 : ((N : Int) + 1 - (N + 1 - n - 1)).toNat = n + 1 := by omega
  have e2 : ((N : Int) + 1 - (N + 1 - n)).toNat = n := by omega
  rw [e1, e2, rightEnv]
  have e3 : (N : Int) + 1 - n - 1 = N - n := by ring
  rw [e3]

theorem rE_some {bR : Option E} {psi : Int → A} {N : Nat} {k : Int} (h : k ≤ N) : ∃ e, rE absorb bR psi N k = some e := by
  have : k = (k + 1) - 1 := by ring
  rw [this, rE_pred (by omega)]
  exact ⟨_, rfl⟩

theorem lE_congr {bL : Option E} {psi psi' : Int → A} {k : Int} (h : ∀ i, 1 ≤ i → i ≤ k → psi i = psi' i) :
    lE absorb bL psi k = lE absorb bL psi' k := by
  unfold lE
  have h' : ∀ i : Int, 1 ≤ i → i ≤ k.toNat → psi i = psi' i := fun i h1 h2 => h i h1 (by omega)
  generalize k.toNat = n at h'
  induction n with
  | zero => rfl
  | succ n ih =>
    simp only [leftEnv]
    rw [ih fun i h1 h2 => h' i h1 (by push_cast; omega), h' _ (by omega) (by push_cast; omega)]

theorem rE_congr {bR : Option E} {psi psi' : Int → A} {N : Nat} {k : Int} (h : ∀ i, k ≤ i → i ≤ N → psi i = psi' i) :
    rE absorb bR psi N k = rE absorb bR psi' N k := by
  unfold rE
  have h' : ∀ i : Int, (N : Int) + 1 - ((N : Int) + 1 - k).toNat ≤ i → i ≤ N → psi i = psi' i := fun i h1 h2 => by
    by_cases hk : k ≤ N + 1
    · exact h i (by omega) h2
    · exact h i (by omega) h2
  generalize ((N : Int) + 1 - k).toNat = n at h'
  induction n with
  | zero => rfl
  | succ n ih =>
    simp only [rightEnv]
    rw [ih fun i h1 h2 => h' i (by push_cast; omega) h2, h' _ (by push_cast; omega) (by omega)]

/-! ## In memory -/

/-- In memory: all slots up to `LHlim_` hold left environments, all from `RHlim_` on right environments. -/
structure Mem (absorb : Int → Option E → A → E) (bL bR : Option E) (psi : Int → A) (s : State E) : Prop where
  write : s.write = false
  lo : 0 ≤ s.L
  lt : s.L < s.R
  hi : s.R ≤ s.N + 1
  left : ∀ k, 0 ≤ k → k ≤ s.L → s.PH k = lE absorb bL psi k
  right : ∀ k, s.R ≤ k → k ≤ s.N + 1 → s.PH k = rE absorb bR psi s.N k

theorem at'_ok {s : State E} {i : Int} (h : 0 ≤ i) (h' : i ≤ s.N + 1) : at' s i = .ok () := by
  unfold at'; rw [if_pos ⟨h, by omega⟩]

theorem site_ok {s : State E} {psi : Int → A} {i : Int} (h : 1 ≤ i) (h' : i ≤ s.N) : site s psi i = .ok (psi i) := by
  unfold site; rw [if_pos ⟨h, h'⟩]

theorem makeLLoop_mem {bL : Option E} {psi : Int → A} {k : Int} : ∀ (n : Nat) (s : State E), s.write = false → 0 ≤ s.L →
    k ≤ s.N → n = (k - s.L).toNat → (∀ i, 0 ≤ i → i ≤ s.L → s.PH i = lE absorb bL psi i) →
    ∃ PH', makeLLoop absorb psi k n s = .ok { s with PH := PH', L := max s.L k } ∧
      (∀ i, 0 ≤ i → i ≤ max s.L k → PH' i = lE absorb bL psi i) ∧ (∀ i, max s.L k < i → PH' i = s.PH i) := by
  intro n
  induction n with
  | zero =>
    intro s _ _ _ hn h
    have : max s.L k = s.L := by omega
    refine ⟨s.PH, by simp [makeLLoop, this], by rw [this]; exact h, fun _ _ => rfl⟩
  | succ n ih =>
    intro s hw h0 hk hn h
    have hlt : s.L < k := by omega
    rw [makeLLoop, if_pos hlt, at'_ok h0 (by omega), at'_ok (by omega) (by omega), site_ok (by omega) (by omega)]
    simp only [Res.bind_ok]
    rw [setL, if_pos (by simpa [put] using hw)]
    simp only [Res.bind_ok]
    obtain ⟨PH', e, h1, h2⟩ := ih { put s (s.L + 1) (some (absorb (s.L + 1) (s.PH s.L) (psi (s.L + 1)))) with L := s.L + 1 }
      (by simpa [put] using hw) (by simp only [put]; omega) (by simpa [put] using hk) (by simp only [put]; omega) (by
        intro i hi hi'
        simp only [put] at hi' ⊢
        by_cases he : i = s.L + 1
        · subst he
          rw [Function.update_self, h s.L h0 le_rfl, lE_succ h0]
        · rw [Function.update_of_ne he]
          exact h i hi (by omega))
    have hm : max (s.L + 1) k = max s.L k := by omega
    refine ⟨PH', ?_, ?_, ?_⟩
    · rw [e]; simp only [put, hm]
    · simpa only [put, hm] using h1
    · intro i hi
      have := h2 i (by simpa only [put, hm] using hi)
      rw [this]
      simp only [put]
      rw [Function.update_of_ne (by omega)]

theorem makeRLoop_mem {bR : Option E} {psi : Int → A} {k : Int} : ∀ (n : Nat) (s : State E), s.write = false → s.R ≤ s.N + 1 →
    1 ≤ k → n = (s.R - k).toNat → (∀ i, s.R ≤ i → i ≤ s.N + 1 → s.PH i = rE absorb bR psi s.N i) →
    ∃ PH', makeRLoop absorb psi k n s = .ok { s with PH := PH', R := min s.R k } ∧
      (∀ i, min s.R k ≤ i → i ≤ s.N + 1 → PH' i = rE absorb bR psi s.N i) ∧ (∀ i, i < min s.R k → PH' i = s.PH i) := by
  intro n
  induction n with
  | zero =>
    intro s _ _ _ hn h
    have : min s.R k = s.R := by omega
    refine ⟨s.PH, by simp [makeRLoop, this], by rw [this]; exact h, fun _ _ => rfl⟩
  | succ n ih =>
    intro s hw h0 hk hn h
    have hlt : s.R > k := by omega
    rw [makeRLoop, if_pos hlt, at'_ok (by omega) h0, at'_ok (by omega) (by omega), site_ok (by omega) (by omega)]
    simp only [Res.bind_ok]
    rw [setR, if_pos (by simpa [put] using hw)]
    simp only [Res.bind_ok]
    obtain ⟨PH', e, h1, h2⟩ := ih { put s (s.R - 1) (some (absorb (s.R - 1) (s.PH s.R) (psi (s.R - 1)))) with R := s.R - 1 }
      (by simpa [put] using hw) (by simp only [put]; omega) hk (by simp only [put]; omega) (by
        intro i hi hi'
        simp only [put] at hi hi' ⊢
        by_cases he : i = s.R - 1
        · subst he
          rw [Function.update_self, h s.R le_rfl h0, rE_pred h0]
        · rw [Function.update_of_ne he]
          exact h i (by omega) hi')
    have hm : min (s.R - 1) k = min s.R k := by omega
    refine ⟨PH', ?_, ?_, ?_⟩
    · rw [e]; simp only [put, hm]
    · simpa only [put, hm] using h1
    · intro i hi
      have := h2 i (by simpa only [put, hm] using hi)
      rw [this]
      simp only [put]
      rw [Function.update_of_ne (by omega)]

theorem position_mem {bL bR : Option E} {psi : Int → A} {s : State E} (h : Mem absorb bL bR psi s) {b : Int} (hb : 1 ≤ b)
    (hn : 0 ≤ s.nc) (hN : b + s.nc ≤ s.N + 1) : ∃ s', position absorb b psi s = .ok s' ∧ Mem absorb bL bR psi s' ∧
      s'.L = b - 1 ∧ s'.R = b + s.nc ∧ s'.nc = s.nc ∧ s'.N = s.N ∧ s'.op = s.op := by
  obtain ⟨PH1, e1, a1, a2⟩ := makeLLoop_mem (absorb := absorb) (bL := bL) (psi := psi) (k := b - 1) (b - 1 - s.L).toNat s h.write h.lo
    (by omega) rfl h.left
  have hR : ∀ i, s.R ≤ i → i ≤ s.N + 1 → max s.L (b - 1) < i → PH1 i = rE absorb bR psi s.N i := fun i h1 h2 h3 => by
    rw [a2 i h3]; exact h.right i h1 h2
  unfold position makeL makeR
  rw [e1]
  simp only [Res.bind_ok]
  by_cases hm : b + s.nc < s.R
  · -- the right environment grows
    obtain ⟨PH2, e2, c1, c2⟩ := makeRLoop_mem (absorb := absorb) (bR := bR) (psi := psi) (k := b + s.nc) (s.R - (b + s.nc)).toNat
      { s with PH := PH1, L := max s.L (b - 1) } h.write h.hi (by omega) rfl (by
        intro i h1 h2
        refine hR i h1 h2 ?_
        have h1 : s.R ≤ i := h1
        have := h.lt
        omega)
    rw [e2]
    simp only [Res.bind_ok]
    rw [setL, if_pos h.write]
    simp only [Res.bind_ok]
    rw [setR, if_pos h.write]
    have hmin : min s.R (b + s.nc) = b + s.nc := by omega
    simp only [hmin] at c1 c2
    refine ⟨_, rfl, ⟨h.write, by simp only; omega, by simp only; omega, hN, ?_, ?_⟩, rfl, rfl, rfl, rfl, rfl⟩
    · intro k hk hk'
      simp only at hk'
      simp only
      rw [c2 k (by omega), a1 k hk (by omega)]
    · intro k hk hk'
      exact c1 k hk hk'
  · have e2 : makeRLoop absorb psi (b + s.nc) (s.R - (b + s.nc)).toNat { s with PH := PH1, L := max s.L (b - 1) } =
        .ok { s with PH := PH1, L := max s.L (b - 1) } := by
      have : (s.R - (b + s.nc)).toNat = 0 := by omega
      rw [this]; rfl
    rw [e2]
    simp only [Res.bind_ok]
    rw [setL, if_pos h.write]
    simp only [Res.bind_ok]
    rw [setR, if_pos h.write]
    refine ⟨_, rfl, ⟨h.write, by simp only; omega, by simp only; omega, hN, ?_, ?_⟩, rfl, rfl, rfl, rfl, rfl⟩
    · intro k hk hk'
      simp only at hk'
      exact a1 k hk (by omega)
    · intro k hk hk'
      simp only at hk hk'
      have := h.lt
      exact hR k (by omega) hk' (by omega)

theorem Mem.change {bL bR : Option E} {psi psi' : Int → A} {s : State E} (h : Mem absorb bL bR psi s)
    (hp : ∀ i : Int, 1 ≤ i → i ≤ s.N → i ≤ s.L ∨ s.R ≤ i → psi' i = psi i) : Mem absorb bL bR psi' s := by
  have := h.lt
  have := h.hi
  have := h.lo
  exact ⟨h.write, h.lo, h.lt, h.hi, fun k h1 h2 => by
      rw [h.left k h1 h2]; exact lE_congr fun i h3 h4 => (hp i h3 (by omega) (Or.inl (by omega))).symm,
    fun k h1 h2 => by
      rw [h.right k h1 h2]; exact rE_congr fun i h3 h4 => (hp i (by omega) h4 (Or.inr (by omega))).symm⟩

theorem Mem.make {bL bR : Option E} {psi : Int → A} {N : Nat} {nc : Int} {op : Bool} :
    Mem absorb bL bR psi (make N bL bR nc op) := by
  refine ⟨rfl, le_rfl, ?_, le_rfl, fun k h1 h2 => ?_, fun k h1 h2 => ?_⟩
  · simp only [LocalMPO.make]; omega
  · simp only [LocalMPO.make] at h2 ⊢
    have : k = 0 := by omega
    subst this
    simp [lE_zero]
  · simp only [LocalMPO.make] at h1 h2 ⊢
    have : k = N + 1 := by omega
    subst this
    rw [if_neg (by omega), if_pos rfl, rE_last]

/-- What happens to a `LocalMPO` in a calculation: it is made, positioned, and in between the state is changed at the sites of
the open window `b..b+nc-1` only (anywhere, before the first call). The last argument is the bond it was positioned at last. -/
inductive Calc (absorb : Int → Option E → A → E) (N : Nat) (bL bR : Option E) (nc : Int) (op : Bool) :
    State E → (Int → A) → Option Int → Prop
  | init (psi : Int → A) : Calc absorb N bL bR nc op (make N bL bR nc op) psi none
  | pos {s s' psi w} (b : Int) : Calc absorb N bL bR nc op s psi w → 1 ≤ b → b + nc ≤ N + 1 →
      position absorb b psi s = .ok s' → Calc absorb N bL bR nc op s' psi (some b)
  | change {s psi w} (psi' : Int → A) : Calc absorb N bL bR nc op s psi w →
      (∀ b, w = some b → ∀ i, i < b ∨ b + nc ≤ i → psi' i = psi i) → Calc absorb N bL bR nc op s psi' w

theorem Calc.inv {N : Nat} {bL bR : Option E} {nc : Int} {op : Bool} (hnc : 0 ≤ nc) {s : State E} {psi : Int → A} {w : Option Int}
    (h : Calc absorb N bL bR nc op s psi w) : Mem absorb bL bR psi s ∧ s.N = N ∧ s.nc = nc ∧
      (∀ b, w = some b → s.L = b - 1 ∧ s.R = b + nc) ∧ (w = none → s.L = 0 ∧ s.R = N + 1) := by
  induction h with
  | init psi => exact ⟨Mem.make, rfl, rfl, by simp, fun _ => ⟨rfl, rfl⟩⟩
  | @pos s s' psi w b _ hb hN e ih =>
    obtain ⟨hm, rfl, hc, _, _⟩ := ih
    obtain ⟨s2, e2, hm2, l2, r2, c2, n2, o2⟩ := position_mem hm hb (by omega) (by omega)
    rw [e] at e2
    cases e2
    refine ⟨hm2, n2, by omega, ?_, by simp⟩
    rintro b' hb'
    cases hb'
    exact ⟨l2, by omega⟩
  | @change s psi w psi' _ hp ih =>
    obtain ⟨hm, hN, hc, hw, h0⟩ := ih
    refine ⟨hm.change fun i h1 h2 h3 => ?_, hN, hc, hw, h0⟩
    cases w with
    | none =>
      obtain ⟨hl, hr⟩ := h0 rfl
      omega
    | some b =>
      obtain ⟨hl, hr⟩ := hw b rfl
      exact hp b rfl i (by omega)

/-- C44. At any time of a calculation in which the state is only changed inside the open window, `position` succeeds at every bond of
the chain, and afterwards, until the next call, `L()` and `R()` are the environments of the current state, with the boundary tensors
given, whatever was calculated before. -/
theorem C44_position {N : Nat} {bL bR : Option E} {nc : Int} {op : Bool} (hnc : 0 ≤ nc) {s : State E} {psi : Int → A} :
    (∀ w, Calc absorb N bL bR nc op s psi w → ∀ b, 1 ≤ b → b + nc ≤ N + 1 → ∃ s', position absorb b psi s = .ok s') ∧
    (∀ b, Calc absorb N bL bR nc op s psi (some b) →
      getL s = lE absorb bL psi (b - 1) ∧ getR s = rE absorb bR psi N (b + nc)) := by
  refine ⟨fun w h b hb hN => ?_, fun b h => ?_⟩
  · obtain ⟨hm, rfl, rfl, _⟩ := h.inv hnc
    obtain ⟨s', e, _⟩ := position_mem hm hb hnc hN
    exact ⟨s', e⟩
  · obtain ⟨hm, hN, hc, hw, _⟩ := h.inv hnc
    obtain ⟨hl, hr⟩ := hw b rfl
    have := hm.lo
    have := hm.lt
    have := hm.hi
    constructor
    · rw [getL, hm.left _ hm.lo le_rfl, hl]
    · rw [getR, hm.right _ le_rfl hm.hi, hr, hN]

/-! ## On disk -/

/-- The tensor of a slot, in memory or else in the file. -/
def look (s : State E) (k : Int) : Option E := match s.PH k with
  | some e => some e
  | none => s.file k

theorem look_flush (s : State E) (i k : Int) : look (flush s i) k = look s k := by
  unfold flush
  cases h : s.PH i with
  | none => rfl
  | some e =>
    simp only [look]
    by_cases hk : k = i
    · subst hk; simp [h]
    · simp [Function.update_of_ne hk]

theorem flush_self (s : State E) (i : Int) : (flush s i).PH i = none := by
  unfold flush
  cases h : s.PH i with
  | none => simpa using h
  | some e => simp

theorem flush_ne (s : State E) {i k : Int} (h : k ≠ i) : (flush s i).PH k = s.PH k := by
  unfold flush
  cases s.PH i with
  | none => rfl
  | some e => simp [Function.update_of_ne h]

theorem flush_eq (s : State E) (i : Int) : ∃ PH' file', flush s i = { s with PH := PH', file := file' } := by
  unfold flush
  cases s.PH i with
  | none => exact ⟨_, _, rfl⟩
  | some e => exact ⟨_, _, rfl⟩

theorem load_spec {s : State E} {i : Int} {e : E} (h : look s i = some e) :
    load s i = .ok { s with PH := Function.update s.PH i (some e) } := by
  unfold load
  unfold look at h
  cases hp : s.PH i with
  | some e' =>
    rw [hp] at h
    simp only at h ⊢
    rw [← h, ← hp, Function.update_eq_self]
  | none =>
    rw [hp] at h
    simp only at h ⊢
    rw [h]
    rfl

/-- The effect of `setLHlim` and `setRHlim` on the tensors: no slot but a boundary one changes its contents, the old one is
not in memory any more, the new one is. -/
structure Moved (s : State E) (old val : Int) (bd : Prop) (PH' file' : Int → Option E) : Prop where
  same : ∀ k, ¬ (k = val ∧ bd) → look { s with PH := PH', file := file' } k = look s k
  new : ¬ bd → PH' val = look s val
  bdry : bd → PH' val = none
  other : ∀ k, k ≠ old → k ≠ val → PH' k = s.PH k
  old : old ≠ val → PH' old = none

theorem moved_aux {s s1 : State E} {old val : Int} {bd : Prop} {PH' file' : Int → Option E} (hlook : ∀ k, look s1 k = look s k)
    (hoth : ∀ k, k ≠ old → s1.PH k = s.PH k) (hold : old ≠ val → s1.PH old = none)
    (hfile : file' = s1.file) (hbd : bd → PH' = Function.update s1.PH val none)
    (hnb : ¬ bd → ∃ e, look s val = some e ∧ PH' = Function.update s1.PH val (some e)) : Moved s old val bd PH' file' := by
  subst hfile
  by_cases hb : bd
  · have hP := hbd hb
    subst hP
    refine ⟨fun k hk => ?_, fun h => absurd hb h, fun _ => by simp, fun k h1 h2 => ?_, fun h => ?_⟩
    · have hk' : k ≠ val := fun h => hk ⟨h, hb⟩
      rw [← hlook k]
      simp only [look, Function.update_of_ne hk']
    · rw [Function.update_of_ne h2, hoth k h1]
    · rw [Function.update_of_ne h, hold h]
  · obtain ⟨e, he, hP⟩ := hnb hb
    subst hP
    refine ⟨fun k _ => ?_, fun _ => by simp [he], fun h => absurd h hb, fun k h1 h2 => ?_, fun h => ?_⟩
    · rw [← hlook k]
      by_cases hk' : k = val
      · subst hk'
        rw [hlook k, he]
        simp [look]
      · simp only [look, Function.update_of_ne hk']
    · rw [Function.update_of_ne h2, hoth k h1]
    · rw [Function.update_of_ne h, hold h]

theorem setL_spec {s : State E} {val : Int} (hw : s.write = true) (h0 : 0 ≤ s.L) (h1 : s.L ≤ s.N + 1) (h2 : 0 ≤ val)
    (h3 : val ≤ s.N + 1) (h : val < 1 ∨ ∃ e, look s val = some e) :
    ∃ PH' file', setL s val = .ok { s with PH := PH', file := file', L := val } ∧ Moved s s.L val (val < 1) PH' file' := by
  unfold setL
  rw [if_neg (by simp [hw])]
  have key : ∃ s1 : State E, (if s.L ≠ val then (at' s s.L).bind fun _ => .ok (flush s s.L) else Res.ok s) = .ok s1 ∧
      (∃ PH' file', s1 = { s with PH := PH', file := file' }) ∧ (∀ k, look s1 k = look s k) ∧
      (∀ k, k ≠ s.L → s1.PH k = s.PH k) ∧ (s.L ≠ val → s1.PH s.L = none) := by
    by_cases hv : s.L ≠ val
    · rw [if_pos hv, at'_ok h0 h1]
      exact ⟨_, rfl, flush_eq s _, look_flush s _, fun k hk => flush_ne s hk, fun _ => flush_self s _⟩
    · rw [if_neg hv]
      exact ⟨s, rfl, ⟨_, _, rfl⟩, fun _ => rfl, fun _ _ => rfl, fun h => absurd h hv⟩
  obtain ⟨s1, e1, ⟨P1, f1, hs1⟩, hl, ho, hold⟩ := key
  rw [e1]
  simp only [Res.bind_ok]
  have hat : at' { s1 with L := val } val = .ok () := at'_ok h2 (by rw [hs1]; exact h3)
  rw [hat]
  simp only [Res.bind_ok]
  by_cases hb : val < 1
  · rw [if_pos hb]
    refine ⟨Function.update s1.PH val none, s1.file, ?_, moved_aux hl ho hold rfl (fun _ => rfl) fun h => absurd hb h⟩
    rw [hs1]; rfl
  · rw [if_neg hb]
    obtain ⟨e, he⟩ := h.resolve_left hb
    rw [load_spec (e := e) (by rw [← he, ← hl val]; rfl)]
    refine ⟨Function.update s1.PH val (some e), s1.file, ?_, moved_aux hl ho hold rfl (fun h => absurd h hb) fun _ => ⟨e, he, rfl⟩⟩
    rw [hs1]

theorem setR_spec {s : State E} {val : Int} (hw : s.write = true) (hop : s.op = true) (h0 : 0 ≤ s.R) (h1 : s.R ≤ s.N + 1)
    (h2 : 0 ≤ val) (h3 : val ≤ s.N + 1) (h : val > s.N ∨ ∃ e, look s val = some e) :
    ∃ PH' file', setR s val = .ok { s with PH := PH', file := file', R := val } ∧ Moved s s.R val (val > s.N) PH' file' := by
  unfold setR
  rw [if_neg (by simp [hw])]
  have key : ∃ s1 : State E, (if s.R ≠ val then (at' s s.R).bind fun _ => .ok (flush s s.R) else Res.ok s) = .ok s1 ∧
      (∃ PH' file', s1 = { s with PH := PH', file := file' }) ∧ (∀ k, look s1 k = look s k) ∧
      (∀ k, k ≠ s.R → s1.PH k = s.PH k) ∧ (s.R ≠ val → s1.PH s.R = none) := by
    by_cases hv : s.R ≠ val
    · rw [if_pos hv, at'_ok h0 h1]
      exact ⟨_, rfl, flush_eq s _, look_flush s _, fun k hk => flush_ne s hk, fun _ => flush_self s _⟩
    · rw [if_neg hv]
      exact ⟨s, rfl, ⟨_, _, rfl⟩, fun _ => rfl, fun _ _ => rfl, fun h => absurd h hv⟩
  obtain ⟨s1, e1, ⟨P1, f1, hs1⟩, hl, ho, hold⟩ := key
  rw [e1]
  simp only [Res.bind_ok]
  have hat : at' { s1 with R := val } val = .ok () := at'_ok h2 (by rw [hs1]; exact h3)
  rw [hat]
  simp only [Res.bind_ok]
  rw [if_neg (by rw [hs1]; simp [hop])]
  have hN : s1.N = s.N := by rw [hs1]
  by_cases hb : val > s.N
  · rw [if_pos (by rw [hN]; exact hb)]
    refine ⟨Function.update s1.PH val none, s1.file, ?_, moved_aux hl ho hold rfl (fun _ => rfl) fun h => absurd hb h⟩
    rw [hs1]; rfl
  · rw [if_neg (by rw [hN]; exact hb)]
    obtain ⟨e, he⟩ := h.resolve_left hb
    rw [load_spec (e := e) (by rw [← he, ← hl val]; rfl)]
    refine ⟨Function.update s1.PH val (some e), s1.file, ?_, moved_aux hl ho hold rfl (fun h => absurd h hb) fun _ => ⟨e, he, rfl⟩⟩
    rw [hs1]

theorem look_put {s : State E} {i : Int} {e : E} (k : Int) : look (put s i (some e)) k = if k = i then some e else look s k := by
  unfold look put
  by_cases hk : k = i
  · subst hk; simp
  · simp [hk]

theorem put_ne {s : State E} {i k : Int} {e : Option E} (h : k ≠ i) : (put s i e).PH k = s.PH k := by simp [put, h]

/-- While the left environment grows. -/
structure PhA (absorb : Int → Option E → A → E) (psi : Int → A) (s : State E) : Prop where
  write : s.write = true
  op : s.op = true
  loL : 0 ≤ s.L
  hiL : s.L ≤ s.N
  loR : 1 ≤ s.R
  hiR : s.R ≤ s.N + 1
  left : ∀ k, 1 ≤ k → k ≤ s.L → look s k = lE absorb none psi k
  curL : s.PH s.L = lE absorb none psi s.L
  right : ∀ k : Int, s.R ≤ k → k ≤ s.N → s.L < k → look s k = rE absorb none psi s.N k
  curR : s.L < s.R → s.PH s.R = rE absorb none psi s.N s.R
  gone : s.R < s.L → s.PH s.R = none

/-- While the right environment grows. -/
structure PhB (absorb : Int → Option E → A → E) (psi : Int → A) (s : State E) : Prop where
  write : s.write = true
  op : s.op = true
  loL : 0 ≤ s.L
  hiL : s.L ≤ s.N
  loR : 1 ≤ s.R
  hiR : s.R ≤ s.N + 1
  right : ∀ k : Int, s.R ≤ k → k ≤ s.N → look s k = rE absorb none psi s.N k
  curR : s.PH s.R = rE absorb none psi s.N s.R
  left : ∀ k, 1 ≤ k → k ≤ s.L → k < s.R → look s k = lE absorb none psi k
  curL : s.L < s.R → s.PH s.L = lE absorb none psi s.L
  gone : s.R < s.L → s.PH s.L = none

theorem PhA.step {psi : Int → A} {s : State E} (h : PhA absorb psi s) (hl : s.L < s.N) : ∃ PH' file',
    setL (put s (s.L + 1) (some (absorb (s.L + 1) (s.PH s.L) (psi (s.L + 1))))) (s.L + 1) =
      .ok { s with PH := PH', file := file', L := s.L + 1 } ∧ PhA absorb psi { s with PH := PH', file := file', L := s.L + 1 } := by
  have h0 := h.loL
  have he : lE absorb none psi (s.L + 1) = some (absorb (s.L + 1) (s.PH s.L) (psi (s.L + 1))) := by rw [lE_succ h0, h.curL]
  generalize absorb (s.L + 1) (s.PH s.L) (psi (s.L + 1)) = e at he ⊢
  obtain ⟨PH', file', e1, m⟩ := setL_spec (s := put s (s.L + 1) (some e)) (val := s.L + 1) h.write h0 (by simp only [put]; omega)
    (by omega) (by simp only [put]; omega) (Or.inr ⟨e, by rw [look_put, if_pos rfl]⟩)
  have hs : ∀ k, look { s with PH := PH', file := file', L := s.L + 1 } k = if k = s.L + 1 then some e else look s k := by
    intro k
    rw [← look_put k, ← m.same k (by omega)]
    rfl
  refine ⟨PH', file', by rw [e1]; rfl, ⟨h.write, h.op, by simp only; omega, by simp only; omega, h.loR, h.hiR, ?_, ?_, ?_, ?_, ?_⟩⟩
  · intro k h1 h2
    simp only at h2
    rw [hs]
    split
    · next hk => subst hk; exact he.symm
    · exact h.left k h1 (by omega)
  · rw [he]
    show PH' (s.L + 1) = some e
    rw [m.new (by omega), look_put, if_pos rfl]
  · intro k h1 h2 h3
    simp only at h1 h2 h3
    rw [hs, if_neg (by omega)]
    exact h.right k h1 h2 (by omega)
  · intro h1
    simp only at h1
    show PH' s.R = _
    rw [m.other s.R (by simp only [put]; omega) (by omega), put_ne (by omega)]
    exact h.curR (by omega)
  · intro h1
    simp only at h1
    show PH' s.R = none
    by_cases hr : s.R = s.L
    · rw [hr]
      exact m.old (by simp only [put]; omega)
    · rw [m.other s.R (by simp only [put]; omega) (by omega), put_ne (by omega)]
      exact h.gone (by omega)

theorem PhB.step {psi : Int → A} {s : State E} (h : PhB absorb psi s) (hl : 1 < s.R) : ∃ PH' file',
    setR (put s (s.R - 1) (some (absorb (s.R - 1) (s.PH s.R) (psi (s.R - 1))))) (s.R - 1) =
      .ok { s with PH := PH', file := file', R := s.R - 1 } ∧ PhB absorb psi { s with PH := PH', file := file', R := s.R - 1 } := by
  have h0 := h.hiR
  have he : rE absorb none psi s.N (s.R - 1) = some (absorb (s.R - 1) (s.PH s.R) (psi (s.R - 1))) := by rw [rE_pred h0, h.curR]
  generalize absorb (s.R - 1) (s.PH s.R) (psi (s.R - 1)) = e at he ⊢
  obtain ⟨PH', file', e1, m⟩ := setR_spec (s := put s (s.R - 1) (some e)) (val := s.R - 1) h.write h.op (by simp only [put]; omega) h0
    (by omega) (by simp only [put]; omega) (Or.inr ⟨e, by rw [look_put, if_pos rfl]⟩)
  have hs : ∀ k, look { s with PH := PH', file := file', R := s.R - 1 } k = if k = s.R - 1 then some e else look s k := by
    intro k
    rw [← look_put k, ← m.same k (by simp only [put]; omega)]
    rfl
  refine ⟨PH', file', by rw [e1]; rfl, ⟨h.write, h.op, h.loL, h.hiL, by simp only; omega, by simp only; omega, ?_, ?_, ?_, ?_, ?_⟩⟩
  · intro k h1 h2
    simp only at h1 h2
    rw [hs]
    split
    · next hk => subst hk; exact he.symm
    · exact h.right k (by omega) h2
  · simp only
    rw [he, m.new (by simp only [put]; omega), look_put, if_pos rfl]
  · intro k h1 h2 h3
    simp only at h1 h2 h3
    rw [hs, if_neg (by omega)]
    exact h.left k h1 h2 (by omega)
  · intro h1
    simp only at h1
    show PH' s.L = _
    rw [m.other s.L (by simp only [put]; omega) (by omega), put_ne (by omega)]
    exact h.curL (by omega)
  · intro h1
    simp only at h1
    show PH' s.L = none
    by_cases hr : s.L = s.R
    · rw [hr]
      exact m.old (by simp only [put]; omega)
    · rw [m.other s.L (by simp only [put]; omega) (by omega), put_ne (by omega)]
      exact h.gone (by omega)

theorem makeLLoop_disk {psi : Int → A} {k : Int} : ∀ (n : Nat) (s : State E), PhA absorb psi s → k ≤ s.N → n = (k - s.L).toNat →
    ∃ PH' file', makeLLoop absorb psi k n s = .ok { s with PH := PH', file := file', L := max s.L k } ∧
      PhA absorb psi { s with PH := PH', file := file', L := max s.L k } := by
  intro n
  induction n with
  | zero =>
    intro s h _ hn
    have : max s.L k = s.L := by omega
    rw [this]
    exact ⟨s.PH, s.file, rfl, h⟩
  | succ n ih =>
    intro s h hk hn
    have hlt : s.L < k := by omega
    have h0 := h.loL
    rw [makeLLoop, if_pos hlt, at'_ok h0 (by omega), at'_ok (by omega) (by omega), site_ok (by omega) (by omega)]
    simp only [Res.bind_ok]
    obtain ⟨P1, f1, e1, h1⟩ := h.step (by omega)
    rw [e1]
    simp only [Res.bind_ok]
    obtain ⟨P2, f2, e2, h2⟩ := ih _ h1 hk (by simp only; omega)
    have hm : max (s.L + 1) k = max s.L k := by omega
    simp only [hm] at e2 h2
    exact ⟨P2, f2, e2, h2⟩

theorem makeRLoop_disk {psi : Int → A} {k : Int} : ∀ (n : Nat) (s : State E), PhB absorb psi s → 1 ≤ k → n = (s.R - k).toNat →
    ∃ PH' file', makeRLoop absorb psi k n s = .ok { s with PH := PH', file := file', R := min s.R k } ∧
      PhB absorb psi { s with PH := PH', file := file', R := min s.R k } := by
  intro n
  induction n with
  | zero =>
    intro s h _ hn
    have : min s.R k = s.R := by omega
    rw [this]
    exact ⟨s.PH, s.file, rfl, h⟩
  | succ n ih =>
    intro s h hk hn
    have hlt : s.R > k := by omega
    have h0 := h.hiR
    rw [makeRLoop, if_pos hlt, at'_ok (by omega) h0, at'_ok (by omega) (by omega), site_ok (by omega) (by omega)]
    simp only [Res.bind_ok]
    obtain ⟨P1, f1, e1, h1⟩ := h.step (by omega)
    rw [e1]
    simp only [Res.bind_ok]
    obtain ⟨P2, f2, e2, h2⟩ := ih _ h1 hk (by simp only; omega)
    have hm : min (s.R - 1) k = min s.R k := by omega
    simp only [hm] at e2 h2
    exact ⟨P2, f2, e2, h2⟩

/-- On disk: every environment outside of the window can be had from its slot or its file, and the two at the limits are in memory. -/
structure Disk (absorb : Int → Option E → A → E) (psi : Int → A) (s : State E) : Prop where
  write : s.write = true
  op : s.op = true
  lo : 0 ≤ s.L
  lt : s.L < s.R
  hi : s.R ≤ s.N + 1
  left : ∀ k, 1 ≤ k → k ≤ s.L → look s k = lE absorb none psi k
  right : ∀ k : Int, s.R ≤ k → k ≤ s.N → look s k = rE absorb none psi s.N k
  curL : s.PH s.L = lE absorb none psi s.L
  curR : s.PH s.R = rE absorb none psi s.N s.R

theorem Disk.phA {psi : Int → A} {s : State E} (h : Disk absorb psi s) : PhA absorb psi s := by
  have h1 := h.lo
  have h2 := h.lt
  have h3 := h.hi
  exact ⟨h.write, h.op, h.lo, by omega, by omega, h.hi, h.left, h.curL, fun k h1 h2 _ => h.right k h1 h2, fun _ => h.curR,
    fun h => by omega⟩

theorem PhA.phB {psi : Int → A} {s : State E} (h : PhA absorb psi s) (hlt : s.L < s.R) : PhB absorb psi s :=
  ⟨h.write, h.op, h.loL, h.hiL, h.loR, h.hiR, fun k h1 h2 => h.right k h1 h2 (by omega), h.curR hlt, fun k h1 h2 _ => h.left k h1 h2,
    fun _ => h.curL, fun h => by omega⟩

/-- The left limit is set last, when everything is in place for it. -/
theorem PhB.setL {psi : Int → A} {s : State E} (h : PhB absorb psi s) {val : Int} (h0 : 0 ≤ val) (hv : val ≤ s.L) (hr : val < s.R)
    (hne : s.L ≠ s.R) : ∃ s', LocalMPO.setL s val = .ok s' ∧ Disk absorb psi s' ∧ s'.L = val ∧ s'.R = s.R ∧ s'.N = s.N ∧ s'.nc = s.nc := by
  have h1 := h.loL
  have h2 := h.hiL
  have h3 := h.hiR
  have hlook : 1 ≤ val → look s val = lE absorb none psi val := fun h4 => h.left val h4 hv hr
  obtain ⟨P, f, e, m⟩ := setL_spec (s := s) (val := val) h.write h1 (by omega) h0 (by omega) (by
    by_cases h4 : val < 1
    · exact Or.inl h4
    · obtain ⟨x, hx⟩ := lE_some (absorb := absorb) (bL := none) (psi := psi) (k := val) (by omega)
      exact Or.inr ⟨x, by rw [hlook (by omega), hx]⟩)
  refine ⟨_, e, ⟨h.write, h.op, h0, hr, h.hiR, ?_, ?_, ?_, ?_⟩, rfl, rfl, rfl, rfl⟩
  · intro k h4 h5
    simp only at h5
    show look { s with PH := P, file := f } k = _
    rw [m.same k (by omega)]
    exact h.left k h4 (by omega) (by omega)
  · intro k h4 h5
    simp only at h4 h5
    show look { s with PH := P, file := f } k = _
    rw [m.same k (by omega)]
    exact h.right k h4 h5
  · show P val = _
    by_cases h4 : val < 1
    · have : val = 0 := by omega
      rw [m.bdry h4, this, lE_zero]
    · rw [m.new h4, hlook (by omega)]
  · show P s.R = _
    rw [m.other s.R (fun h => hne h.symm) (by omega)]
    exact h.curR

/-- The right limit is set last, when everything is in place for it. -/
theorem PhA.setR {psi : Int → A} {s : State E} (h : PhA absorb psi s) {val : Int} (h0 : val ≤ s.N + 1) (hv : s.R ≤ val) (hr : s.L < val)
    (hne : s.L ≠ s.R) : ∃ s', LocalMPO.setR s val = .ok s' ∧ Disk absorb psi s' ∧ s'.L = s.L ∧ s'.R = val ∧ s'.N = s.N ∧ s'.nc = s.nc := by
  have h1 := h.loL
  have h2 := h.hiL
  have h3 := h.hiR
  have h4 := h.loR
  have hlook : val ≤ s.N → look s val = rE absorb none psi s.N val := fun h4 => h.right val hv h4 hr
  obtain ⟨P, f, e, m⟩ := setR_spec (s := s) (val := val) h.write h.op (by omega) h.hiR (by omega) h0 (by
    by_cases h4 : val > s.N
    · exact Or.inl h4
    · obtain ⟨x, hx⟩ := rE_some (absorb := absorb) (bR := none) (psi := psi) (N := s.N) (k := val) (by omega)
      exact Or.inr ⟨x, by rw [hlook (by omega), hx]⟩)
  refine ⟨_, e, ⟨h.write, h.op, h1, hr, h0, ?_, ?_, ?_, ?_⟩, rfl, rfl, rfl, rfl⟩
  · intro k h4 h5
    simp only at h5
    show look { s with PH := P, file := f } k = _
    rw [m.same k (by omega)]
    exact h.left k h4 (by omega)
  · intro k h4 h5
    simp only at h4 h5
    show look { s with PH := P, file := f } k = _
    rw [m.same k (by omega)]
    exact h.right k (by omega) h5 (by omega)
  · show P s.L = _
    rw [m.other s.L hne (by omega)]
    exact h.curL
  · show P val = _
    by_cases h4 : val > s.N
    · have : val = s.N + 1 := by omega
      rw [m.bdry h4, this, rE_last]
    · rw [m.new h4, hlook (by omega)]

theorem Disk.phB {psi : Int → A} {s : State E} (h : Disk absorb psi s) : PhB absorb psi s := h.phA.phB h.lt

theorem position_disk {psi : Int → A} {s : State E} (h : Disk absorb psi s) {b : Int} (hb : 1 ≤ b) (hn : 0 ≤ s.nc)
    (hN : b + s.nc ≤ s.N + 1) (hj : b - 1 ≠ s.R) (hj' : b + s.nc ≠ s.L) :
    ∃ s', position absorb b psi s = .ok s' ∧ Disk absorb psi s' ∧ s'.L = b - 1 ∧ s'.R = b + s.nc ∧ s'.nc = s.nc ∧ s'.N = s.N := by
  have hlt := h.lt
  have hlo := h.lo
  have hhi := h.hi
  obtain ⟨P1, f1, e1, a1⟩ := makeLLoop_disk (absorb := absorb) (psi := psi) (k := b - 1) (b - 1 - s.L).toNat s h.phA (by omega) rfl
  unfold position makeL makeR
  rw [e1]
  simp only [Res.bind_ok]
  by_cases hm : b + s.nc < s.R
  · obtain ⟨P2, f2, e2, b2⟩ := makeRLoop_disk (absorb := absorb) (psi := psi) (k := b + s.nc) (s.R - (b + s.nc)).toNat _
      (a1.phB (by simp only; omega)) (by omega) (by simp only)
    rw [e2]
    simp only [Res.bind_ok]
    have hmin : min s.R (b + s.nc) = b + s.nc := by omega
    simp only [hmin] at b2 ⊢
    obtain ⟨s3, e3, d3, l3, r3, n3, c3⟩ := b2.setL (val := b - 1) (by omega) (by simp only; omega) (by simp only; omega)
      (by simp only; omega)
    rw [e3]
    simp only [Res.bind_ok]
    simp only at r3 n3 c3
    obtain ⟨s4, e4, d4, l4, r4, n4, c4⟩ := d3.phA.setR (val := b + s3.nc) (by rw [n3, c3]; omega) (by rw [r3, c3]) (by omega) (by omega)
    exact ⟨s4, e4, d4, by omega, by omega, by omega, by omega⟩
  · have e2 : makeRLoop absorb psi (b + s.nc) (s.R - (b + s.nc)).toNat { s with PH := P1, file := f1, L := max s.L (b - 1) } =
        .ok { s with PH := P1, file := f1, L := max s.L (b - 1) } := by
      have : (s.R - (b + s.nc)).toNat = 0 := by omega
      rw [this]; rfl
    rw [e2]
    simp only [Res.bind_ok]
    by_cases hL : b - 1 ≤ s.L
    · have hmax : max s.L (b - 1) = s.L := by omega
      simp only [hmax] at a1 ⊢
      obtain ⟨s3, e3, d3, l3, r3, n3, c3⟩ := (a1.phB hlt).setL (val := b - 1) (by omega) (by simp only; omega) (by simp only; omega)
        (by simp only; omega)
      rw [e3]
      simp only [Res.bind_ok]
      simp only at r3 n3 c3
      obtain ⟨s4, e4, d4, l4, r4, n4, c4⟩ := d3.phA.setR (val := b + s3.nc) (by rw [n3, c3]; omega) (by rw [r3, c3]; omega) (by omega)
        (by omega)
      exact ⟨s4, e4, d4, by omega, by omega, by omega, by omega⟩
    · have hmax : max s.L (b - 1) = b - 1 := by omega
      simp only [hmax] at a1 ⊢
      -- the left limit stays
      have hcur := a1.curL
      obtain ⟨x, hx⟩ := lE_some (absorb := absorb) (bL := none) (psi := psi) (k := b - 1) (by omega)
      simp only [hx] at hcur
      obtain ⟨P3, f3, e3, m⟩ := setL_spec (s := { s with PH := P1, file := f1, L := b - 1 }) (val := b - 1) h.write (by simp only; omega)
        (by simp only; omega) (by omega) (by simp only; omega) (Or.inr ⟨x, by simp only [look, hcur]⟩)
      rw [e3]
      simp only [Res.bind_ok]
      have a3 : PhA absorb psi { s with PH := P3, file := f3, L := b - 1 } := by
        refine ⟨a1.write, a1.op, a1.loL, a1.hiL, a1.loR, a1.hiR, ?_, ?_, ?_, ?_, ?_⟩
        · intro k h1 h2
          exact (m.same k (by omega)).trans (a1.left k h1 h2)
        · simp only
          rw [m.new (by omega), hx]
          simp only [look, hcur]
        · intro k h1 h2 h3
          exact (m.same k (by omega)).trans (a1.right k h1 h2 h3)
        · intro h1
          simp only at h1
          exact (m.other s.R (by simp only; omega) (by omega)).trans (a1.curR h1)
        · intro h1
          simp only at h1
          exact (m.other s.R (by simp only; omega) (by omega)).trans (a1.gone h1)
      obtain ⟨s4, e4, d4, l4, r4, n4, c4⟩ := a3.setR (val := b + s.nc) (by simp only; omega) (by simp only; omega) (by simp only; omega)
        (by simp only; omega)
      exact ⟨s4, e4, d4, by simpa using l4, by omega, by simpa using c4, by simpa using n4⟩

theorem Mem.disk {psi : Int → A} {s s' : State E} (h : Mem absorb none none psi s) (e : doWrite s true = .ok s') :
    Disk absorb psi s' ∧ s'.L = s.L ∧ s'.R = s.R ∧ s'.N = s.N ∧ s'.nc = s.nc := by
  unfold doWrite at e
  by_cases hop : s.op = false
  · rw [if_pos hop] at e; exact absurd e (by simp)
  · rw [if_neg hop, if_pos ⟨h.write, rfl⟩] at e
    cases e
    have h1 := h.lo
    have h2 := h.lt
    have h3 := h.hi
    refine ⟨⟨rfl, by simpa using hop, h.lo, h.lt, h.hi, ?_, ?_, h.left _ h.lo le_rfl, h.right _ le_rfl h.hi⟩, rfl, rfl, rfl, rfl⟩
    · intro k h4 h5
      obtain ⟨x, hx⟩ := lE_some (absorb := absorb) (bL := none) (psi := psi) h4
      have := h.left k (by omega) h5
      rw [hx] at this
      simp only [look, this, hx]
    · intro k h4 h5
      simp only at h4 h5
      obtain ⟨x, hx⟩ := rE_some (absorb := absorb) (bR := none) (psi := psi) h5
      have := h.right k h4 (by omega)
      rw [hx] at this
      simp only [look, this, hx]

theorem Disk.write_again {psi : Int → A} {s s' : State E} (h : Disk absorb psi s) (e : doWrite s true = .ok s') : s' = s := by
  unfold doWrite at e
  rw [if_neg (by simp [h.op]), if_neg (by simp [h.write])] at e
  cases e
  rw [← h.write]

theorem Disk.change {psi psi' : Int → A} {s : State E} (h : Disk absorb psi s)
    (hp : ∀ i : Int, 1 ≤ i → i ≤ s.N → i ≤ s.L ∨ s.R ≤ i → psi' i = psi i) : Disk absorb psi' s := by
  have h1 := h.lt
  have h2 := h.hi
  have h3 := h.lo
  have hl : ∀ k, k ≤ s.L → lE absorb none psi k = lE absorb none psi' k := fun k hk =>
    lE_congr fun i h3 h4 => (hp i h3 (by omega) (Or.inl (by omega))).symm
  have hr : ∀ k, s.R ≤ k → rE absorb none psi s.N k = rE absorb none psi' s.N k := fun k hk =>
    rE_congr fun i h3 h4 => (hp i (by omega) h4 (Or.inr (by omega))).symm
  exact ⟨h.write, h.op, h.lo, h.lt, h.hi, fun k h1 h2 => by rw [h.left k h1 h2, hl k h2],
    fun k h1 h2 => by rw [h.right k h1 h2, hr k h1], by rw [h.curL, hl _ le_rfl], by rw [h.curR, hr _ le_rfl]⟩

/-- A calculation in which writing to disk is turned on at any time, and the projected operator has no boundary tensors. After
that it is never moved by `nc+1` bonds at once. -/
inductive CalcD (absorb : Int → Option E → A → E) (N : Nat) (nc : Int) : State E → (Int → A) → Option Int → Prop
  | init (psi : Int → A) : CalcD absorb N nc (make N none none nc true) psi none
  | pos {s s' psi w} (b : Int) : CalcD absorb N nc s psi w → 1 ≤ b → b + nc ≤ N + 1 →
      (s.write = true → ∀ a, w = some a → b - a ≠ nc + 1 ∧ a - b ≠ nc + 1) →
      position absorb b psi s = .ok s' → CalcD absorb N nc s' psi (some b)
  | change {s psi w} (psi' : Int → A) : CalcD absorb N nc s psi w →
      (∀ b, w = some b → ∀ i, i < b ∨ b + nc ≤ i → psi' i = psi i) → CalcD absorb N nc s psi' w
  | write {s s' psi w} : CalcD absorb N nc s psi w → doWrite s true = .ok s' → CalcD absorb N nc s' psi w

theorem CalcD.inv {N : Nat} {nc : Int} (hnc : 0 ≤ nc) {s : State E} {psi : Int → A} {w : Option Int} (h : CalcD absorb N nc s psi w) :
    (Mem absorb none none psi s ∨ Disk absorb psi s) ∧ s.N = N ∧ s.nc = nc ∧
      (∀ b, w = some b → s.L = b - 1 ∧ s.R = b + nc) ∧ (w = none → s.L = 0 ∧ s.R = N + 1) ∧ s.op = true := by
  induction h with
  | init psi => exact ⟨Or.inl Mem.make, rfl, rfl, by simp, fun _ => ⟨rfl, rfl⟩, rfl⟩
  | @pos s s' psi w b _ hb hN hj e ih =>
    obtain ⟨hm, rfl, hc, hw, h0, ho⟩ := ih
    rcases hm with hm | hm
    · obtain ⟨s2, e2, hm2, l2, r2, c2, n2, o2⟩ := position_mem hm hb (by omega) (by omega)
      rw [e] at e2
      cases e2
      refine ⟨Or.inl hm2, n2, by omega, ?_, by simp, o2.trans ho⟩
      rintro b' hb'
      cases hb'
      exact ⟨l2, by omega⟩
    · have hj2 : b - 1 ≠ s.R ∧ b + s.nc ≠ s.L := by
        cases w with
        | none => have := h0 rfl; omega
        | some a => have := hw a rfl; have := hj hm.write a rfl; omega
      obtain ⟨s2, e2, hm2, l2, r2, c2, n2⟩ := position_disk hm hb (by omega) (by omega) hj2.1 hj2.2
      rw [e] at e2
      cases e2
      refine ⟨Or.inr hm2, n2, by omega, ?_, by simp, hm2.op⟩
      rintro b' hb'
      cases hb'
      exact ⟨l2, by omega⟩
  | @change s psi w psi' _ hp ih =>
    obtain ⟨hm, hN, hc, hw, h0, ho⟩ := ih
    have key : ∀ i : Int, 1 ≤ i → i ≤ s.N → i ≤ s.L ∨ s.R ≤ i → psi' i = psi i := by
      intro i h1 h2 h3
      cases w with
      | none =>
        obtain ⟨hl, hr⟩ := h0 rfl
        omega
      | some b =>
        obtain ⟨hl, hr⟩ := hw b rfl
        exact hp b rfl i (by omega)
    exact ⟨hm.imp (fun hm => hm.change key) (fun hm => hm.change key), hN, hc, hw, h0, ho⟩
  | @write s s' psi w _ e ih =>
    obtain ⟨hm, hN, hc, hw, h0, ho⟩ := ih
    rcases hm with hm | hm
    · obtain ⟨d, l, r, n, c⟩ := hm.disk e
      exact ⟨Or.inr d, n.trans hN, c.trans hc, fun b hb => ⟨l.trans (hw b hb).1, r.trans (hw b hb).2⟩,
        fun h => ⟨l.trans (h0 h).1, r.trans (h0 h).2⟩, d.op⟩
    · rw [hm.write_again e]
      exact ⟨Or.inr hm, hN, hc, hw, h0, ho⟩

/-- C45, partial. With environments written to disk from any time on, `position` succeeds and `L()`, `R()` are the environments of
the current state as without, when there are no boundary tensors and no step is by exactly `nc+1` bonds. Missing: these two
conditions, which the code needs (see the counterexamples), and turning writing off again. -/
theorem C45_disk_partial {N : Nat} {nc : Int} (hnc : 0 ≤ nc) {s : State E} {psi : Int → A} :
    (∀ w, CalcD absorb N nc s psi w → (∃ s', doWrite s true = .ok s') ∧ ∀ b, 1 ≤ b → b + nc ≤ N + 1 →
      (s.write = true → ∀ a, w = some a → b - a ≠ nc + 1 ∧ a - b ≠ nc + 1) → ∃ s', position absorb b psi s = .ok s') ∧
    (∀ b, CalcD absorb N nc s psi (some b) →
      getL s = lE absorb none psi (b - 1) ∧ getR s = rE absorb none psi N (b + nc)) := by
  refine ⟨fun w h => ⟨?_, fun b hb hN hj => ?_⟩, fun b h => ?_⟩
  · obtain ⟨_, _, _, _, _, hop⟩ := h.inv hnc
    unfold doWrite
    rw [if_neg (by simp [hop])]
    exact ⟨_, rfl⟩
  · obtain ⟨hm, rfl, rfl, hw, h0, _⟩ := h.inv hnc
    rcases hm with hm | hm
    · obtain ⟨s', e, _⟩ := position_mem hm hb hnc hN
      exact ⟨s', e⟩
    · have hj2 : b - 1 ≠ s.R ∧ b + s.nc ≠ s.L := by
        cases w with
        | none => have := h0 rfl; omega
        | some a => have := hw a rfl; have := hj hm.write a rfl; omega
      obtain ⟨s', e, _⟩ := position_disk hm hb hnc hN hj2.1 hj2.2
      exact ⟨s', e⟩
  · obtain ⟨hm, hN, hc, hw, _⟩ := h.inv hnc
    obtain ⟨hl, hr⟩ := hw b rfl
    rcases hm with hm | hm
    · constructor
      · rw [getL, hm.left _ hm.lo le_rfl, hl]
      · rw [getR, hm.right _ le_rfl hm.hi, hr, hN]
    · constructor
      · rw [getL, hm.curL, hl]
      · rw [getR, hm.curR, hr, hN]

/-! ## Shifting -/

/-- C46, from the left. From a position with a left environment, `shift(j,Fromleft,A)` at the first site of the window gives the
position one bond to the right, with the environments of the state that has `A` at the site `j`. -/
theorem C46_left {bL bR : Option E} {psi : Int → A} {s : State E} (h : Mem absorb bL bR psi s) (hop : s.op = true)
    (hn : 0 ≤ s.nc) (hpos : s.R = s.L + 1 + s.nc) (hR : s.R ≤ s.N) (hE : 1 ≤ s.L ∨ bL ≠ none) (a : A) :
    ∃ s', shiftLeft absorb (s.L + 1) a s = .ok s' ∧ s'.L = s.L + 1 ∧ s'.R = s.R + 1 ∧
      Mem absorb bL bR (Function.update psi (s.L + 1) a) s' ∧
      getL s' = lE absorb bL (Function.update psi (s.L + 1) a) (s.L + 1) ∧ getR s' = rE absorb bR psi s.N (s.R + 1) := by
  have h0 := h.lo
  obtain ⟨e, he⟩ : ∃ e, s.PH s.L = some e := by
    rw [h.left s.L h0 le_rfl]
    by_cases h1 : 1 ≤ s.L
    · exact lE_some h1
    · have : s.L = 0 := by omega
      rw [this, lE_zero]
      exact Option.ne_none_iff_exists'.mp (hE.resolve_left h1)
  unfold shiftLeft
  rw [if_neg (by omega), at'_ok h0 (by omega), at'_ok (by omega) (by omega)]
  simp only [Res.bind_ok, he]
  rw [if_neg (by simp [hop]), setL, if_pos (by simpa [put] using h.write)]
  simp only [Res.bind_ok]
  rw [setR, if_pos (by simpa [put] using h.write)]
  have hl : ∀ k, k ≤ s.L → lE absorb bL (Function.update psi (s.L + 1) a) k = lE absorb bL psi k := fun k hk =>
    lE_congr fun i _ _ => by rw [Function.update_of_ne (by omega)]
  have hr : ∀ k, s.L + 1 < k → rE absorb bR (Function.update psi (s.L + 1) a) s.N k = rE absorb bR psi s.N k := fun k hk =>
    rE_congr fun i _ _ => by rw [Function.update_of_ne (by omega)]
  have hL : ∀ k, 0 ≤ k → k ≤ s.L + 1 → Function.update s.PH (s.L + 1) (some (absorb (s.L + 1) (some e) a)) k =
      lE absorb bL (Function.update psi (s.L + 1) a) k := by
    intro k h1 h2
    by_cases hk : k = s.L + 1
    · subst hk
      rw [Function.update_self, lE_succ h0, Function.update_self, hl _ le_rfl, ← h.left s.L h0 le_rfl, he]
    · rw [Function.update_of_ne hk, hl k (by omega), h.left k h1 (by omega)]
  have hRr : ∀ k, s.R + 1 ≤ k → k ≤ s.N + 1 → Function.update s.PH (s.L + 1) (some (absorb (s.L + 1) (some e) a)) k =
      rE absorb bR psi s.N k := by
    intro k h1 h2
    rw [Function.update_of_ne (by omega), h.right k (by omega) h2]
  have hRe : s.L + 1 + s.nc + 1 = s.R + 1 := by omega
  refine ⟨_, rfl, rfl, hRe, ⟨h.write, ?_, ?_, ?_, hL, ?_⟩, hL (s.L + 1) (by omega) le_rfl, ?_⟩
  · simp only [put]; omega
  · simp only [put]; omega
  · simp only [put]; omega
  · intro k h1 h2
    simp only [put] at h1 h2 ⊢
    rw [hr k (by omega)]
    exact hRr k (by omega) h2
  · simp only [getR, put, hRe]
    exact hRr _ le_rfl (by omega)

/-- C46 fails from the right: at every position `shift(j,Fromright,A)` at the last site of the window is refused, as the test
compares with the left limit. -/
theorem C46_right_counterexample {s : State E} (hn : 0 ≤ s.nc) (hpos : s.R = s.L + 1 + s.nc) (a : A) :
    shiftRight absorb (s.R - 1) a s = .throw := by
  unfold shiftRight
  rw [if_pos (by omega)]

/-- C46: without a left environment there is no shift from the left either. -/
theorem C46_first_counterexample {psi : Int → A} {bR : Option E} {s : State E} (h : Mem absorb none bR psi s) (hL : s.L = 0) (a : A) :
    shiftLeft absorb 1 a s = .throw := by
  unfold shiftLeft
  have := h.hi
  have := h.lt
  rw [if_neg (by omega), at'_ok (by omega) (by omega), at'_ok (by omega) (by omega)]
  simp only [Res.bind_ok]
  rw [h.left s.L h.lo le_rfl, hL, lE_zero]

end Verif.LocalMPO
