import Verif.MPS.ObserverC88
import Mathlib.Algebra.BigOperators.Field
import Mathlib.Analysis.Complex.ExponentialBounds
import Mathlib.Analysis.Convex.SpecificFunctions.Basic

/-! # C88, continued: calculations, the entropy, and what goes wrong -/

noncomputable section

namespace Verif.Observer

/-- What holds after the sweeps. -/
structure Ended (c : Calc) (ge gs : ℝ) (f : Files) (s m : Nat) (out : List Report) (o : Obs) (j : Job) (f' : Files) (k : Nat) : Prop where
  ge_start : s ≤ k
  le_end : k ≤ s + m
  before : ∀ i, s < i → i < k → ¬ (Met c ge gs i ∨ Found c f i)
  why : (s < k ∧ (Met c ge gs k ∨ Found c f k)) ∨ k = s + m
  energy : s < k → j.energy = some (E c k)
  report : c.silent = false → Ready o → Ready j.obs ∧ ∃ rs, j.out = out ++ rs ∧ rs.length = k - s ∧ ∀ i r, rs[i]? = some r → IsReport c (s + i + 1) r
  done : f.stopAll = false → (∀ i, (c.created i).stopAll = false) → j.obs.done = false
  goalE : j.obs.ge = ge
  goalS : j.obs.gs = gs
  printeigs : j.obs.printeigs = o.printeigs
  left : s < k → Met c ge gs k → ((f'.stop = true ∨ f'.stopAll = true) ↔ Found c f k)
  clean : s < k → ¬ Met c ge gs k → f'.stop = false

theorem sweeps_spec {c : Calc} (hN : 2 ≤ c.N) {fuel : Nat} (hk : 2 * c.N ≤ fuel) {ge gs : ℝ} (hsil : 0 < gs → c.silent = false) (f0 : Files) :
    ∀ (n s : Nat) (j : Job) (f : Files), Mem c ge gs s j.obs → j.obs.done = false → ((f.stop = true ∨ f.stopAll = true) ↔ Found c f0 s) →
    (f0.stopAll = false → (∀ i, (c.created i).stopAll = false) → f.stopAll = false) →
    ∃ j' f' k, sweeps c fuel n s j f = some (.ok (j', f', k)) ∧ Ended c ge gs f0 s n j.out j.obs j' f' k := by
  intro n
  induction n with
  | zero =>
    intro s j f hm hd hf hfa
    exact ⟨j, f, s, rfl, le_rfl, le_rfl, fun i h1 h2 => absurd h1 (by omega), Or.inr rfl, fun h => absurd h (by omega),
      fun _ hr => ⟨hr, [], by simp, by simp, by simp⟩, fun _ _ => hd, hm.goalE, hm.goalS, rfl, fun h => absurd h (by omega), fun h => absurd h (by omega)⟩
  | succ n ih =>
    intro s j f hm hd hf hfa
    rw [sweeps, bonds_spec c (s + 1) hN hk]
    dsimp only
    set j1 := after c (s + 1) (order c.N) j with hj1
    have he : j1.energy = some (E c (s + 1)) := after_energy c (s + 1) hN j
    have hsame : Same j.obs j1.obs := after_same c (s + 1) (order c.N) j
    have hrep : c.silent = false → Ready j.obs → Ready j1.obs ∧ ∃ r, IsReport c (s + 1) r ∧ j1.out = j.out ++ [r] :=
      fun h1 h2 => sweep_report c (s + 1) hN h1 j h2
    have hm1 : Mem c ge gs s j1.obs := ⟨hsame.ge.trans hm.goalE, hsame.gs.trans hm.goalS, fun h => hsame.lastE.trans (hm.lastE h),
      fun h h' => hsame.lastS.trans (hm.lastS h h'), fun h => hsame.printeigs.trans (hm.printeigs h)⟩
    have hS : 0 < gs → j1.obs.S = some (S c (s + 1)) := fun h => order_S (s + 1) hN (hsil h) (hm.printeigs h)
    set f1 : Files := ⟨f.stop || (c.created (s + 1)).stop, f.stopAll || (c.created (s + 1)).stopAll⟩ with hf1
    have hfound : (f1.stop = true ∨ f1.stopAll = true) ↔ Found c f0 (s + 1) := by
      simp only [hf1, Bool.or_eq_true]
      constructor
      · rintro ((h | h) | (h | h))
        · rcases hf.1 (Or.inl h) with h | h | ⟨i, h1, h2, h3⟩
          · exact Or.inl h
          · exact Or.inr (Or.inl h)
          · exact Or.inr (Or.inr ⟨i, h1, by omega, h3⟩)
        · exact Or.inr (Or.inr ⟨s + 1, by omega, le_rfl, Or.inl h⟩)
        · rcases hf.1 (Or.inr h) with h | h | ⟨i, h1, h2, h3⟩
          · exact Or.inl h
          · exact Or.inr (Or.inl h)
          · exact Or.inr (Or.inr ⟨i, h1, by omega, h3⟩)
        · exact Or.inr (Or.inr ⟨s + 1, by omega, le_rfl, Or.inr h⟩)
      · rintro (h | h | ⟨i, h1, h2, h3⟩)
        · rcases hf.2 (Or.inl h) with h | h
          · exact Or.inl (Or.inl h)
          · exact Or.inr (Or.inl h)
        · rcases hf.2 (Or.inr (Or.inl h)) with h | h
          · exact Or.inl (Or.inl h)
          · exact Or.inr (Or.inl h)
        · by_cases hi : i = s + 1
          · subst hi
            rcases h3 with h | h
            · exact Or.inl (Or.inr h)
            · exact Or.inr (Or.inr h)
          · rcases hf.2 (Or.inr (Or.inr ⟨i, h1, by omega, h3⟩)) with h | h
            · exact Or.inl (Or.inl h)
            · exact Or.inr (Or.inl h)
    have hfa1 : f0.stopAll = false → (∀ i, (c.created i).stopAll = false) → f1.stopAll = false := by
      intro h1 h2
      simp [hf1, hfa h1 h2, h2]
    have hd1 : j1.obs.done = false := hsame.done.trans hd
    have fin : ∀ (o' : Obs) (f' : Files), (Met c ge gs (s + 1) ∨ Found c f0 (s + 1)) → o'.maxEigs = j1.obs.maxEigs → o'.maxTe = j1.obs.maxTe →
        (f0.stopAll = false → (∀ i, (c.created i).stopAll = false) → o'.done = false) → o'.ge = ge → o'.gs = gs → o'.printeigs = j1.obs.printeigs →
        (Met c ge gs (s + 1) → f' = f1) → (¬ Met c ge gs (s + 1) → f'.stop = false) →
        ∃ j' f'' k, some (Res.ok ((⟨o', j1.out, j1.energy⟩ : Job), f', s + 1)) = some (.ok (j', f'', k)) ∧ Ended c ge gs f0 s (n + 1) j.out j.obs j' f'' k := by
      intro o' f' hstop h1 h2 h3 h4 h5 h6 h7 h8
      refine ⟨_, _, _, rfl, by omega, by omega, fun i a b => absurd a (by omega), Or.inl ⟨by omega, hstop⟩, fun _ => he, fun a b => ?_, h3, h4, h5, h6.trans hsame.printeigs,
        fun _ hm => by rw [h7 hm]; exact hfound, fun _ hm => h8 hm⟩
      obtain ⟨⟨r1, r2⟩, r, hr, ho⟩ := hrep a b
      refine ⟨⟨h1.trans r1, h2.trans r2⟩, [r], ho, by simp, fun i r' hi => ?_⟩
      rcases i with _ | i
      · simp only [List.getElem?_cons_zero, Option.some.injEq] at hi
        subst hi
        exact hr
      · simp at hi
    rw [he, Option.getD_some]
    rcases check_spec hm1 hS f1 with ⟨hmet, o', e, d1, d2, d3, d4, d5, d6⟩ | ⟨hmet, o', e, d1, d2, d3, d4, d5, d6, d7⟩
    · rw [e]
      dsimp only
      rw [if_pos rfl, ← he]
      exact fin o' f1 (Or.inl hmet) d2 d3 (fun _ _ => d1.trans hd1) d4 d5 d6 (fun _ => rfl) (fun h => absurd hmet h)
    · rw [e]
      by_cases hst : f1.stop = true
      · simp only [checkFiles, hst, if_true]
        rw [← he]
        exact fin _ _ (Or.inr (hfound.1 (Or.inl hst))) d2 d3 (fun _ _ => d1.trans hd1) d4 d5 d7 (fun h => absurd h hmet) (fun _ => rfl)
      · by_cases hsa : f1.stopAll = true
        · simp only [checkFiles, hst, hsa, if_true, Bool.false_eq_true, if_false]
          rw [← he]
          exact fin _ _ (Or.inr (hfound.1 (Or.inr hsa))) d2 d3 (fun a b => absurd (hfa1 a b) (by simp [hsa])) d4 d5 d7 (fun h => absurd h hmet) (fun _ => by simpa using hst)
        · have hnf : ¬ Found c f0 (s + 1) := fun h => (hfound.2 h).elim hst hsa
          simp only [checkFiles, hst, hsa, Bool.false_eq_true, if_false, d1.trans hd1]
          have hm2 : Mem c ge gs (s + 1) { o' with lastE := E c (s + 1), lastS := o'.S, done := false } :=
            ⟨d4, d5, fun _ => rfl, fun _ h => d6.trans (hS h), fun h => d7.trans (hm1.printeigs h)⟩
          obtain ⟨j', f', k, e2, h2⟩ := ih (s + 1) ⟨{ o' with lastE := E c (s + 1), lastS := o'.S, done := false }, j1.out, some (E c (s + 1))⟩ f1 hm2 rfl hfound hfa1
          refine ⟨j', f', k, e2, by have := h2.ge_start; omega, by have := h2.le_end; omega, fun i a b => ?_, ?_, fun _ => ?_, fun a b => ?_, h2.done, h2.goalE, h2.goalS,
            h2.printeigs.trans (d7.trans hsame.printeigs), fun _ hm => ?_, fun _ hm => ?_⟩
          · by_cases hi : i = s + 1
            · subst hi
              exact fun h => h.elim hmet hnf
            · exact h2.before i (by omega) b
          · rcases h2.why with h | h
            · exact Or.inl ⟨by omega, h.2⟩
            · exact Or.inr (by omega)
          · by_cases hks : s + 1 < k
            · exact h2.energy hks
            · have := h2.ge_start
              obtain rfl : k = s + 1 := by omega
              -- then no sweep was made after this one
              rcases h2.why with h | h
              · omega
              · obtain rfl : n = 0 := by omega
                simp only [sweeps, Option.some.injEq, Res.ok.injEq, Prod.mk.injEq] at e2
                rw [← e2.1]
          rotate_left
          · by_cases hks : s + 1 < k
            · exact h2.left hks hm
            · have := h2.ge_start
              obtain rfl : k = s + 1 := by omega
              exact absurd hm hmet
          · by_cases hks : s + 1 < k
            · exact h2.clean hks hm
            · have := h2.ge_start
              obtain rfl : k = s + 1 := by omega
              rcases h2.why with h | h
              · omega
              · obtain rfl : n = 0 := by omega
                simp only [sweeps, Option.some.injEq, Res.ok.injEq, Prod.mk.injEq] at e2
                rw [← e2.2.1]
                simpa using hst
          · obtain ⟨⟨r1, r2⟩, r, hr, ho⟩ := hrep a b
            obtain ⟨g1, rs, g2, g3, g4⟩ := h2.report a ⟨d2.trans r1, d3.trans r2⟩
            refine ⟨g1, r :: rs, by rw [g2, ho]; simp, by have := h2.ge_start; rw [List.length_cons, g3]; omega, fun i r' hi => ?_⟩
            rcases i with _ | i
            · simp only [List.getElem?_cons_zero, Option.some.injEq] at hi
              subst hi
              exact hr
            · have := g4 i r' (by simpa using hi)
              rwa [show s + (i + 1) + 1 = s + 1 + i + 1 by omega]

theorem dmrg_spec {c : Calc} (hN : 2 ≤ c.N) {fuel : Nat} (hk : 2 * c.N ≤ fuel) (nsweep : Nat) (o : Obs) (hd : o.done = false)
    (hS : 0 < o.gs → c.silent = false ∧ o.printeigs = true) (f : Files) :
    ∃ j f' k, dmrg c fuel nsweep o f = some (.ok (j, f', k)) ∧ Ended c o.ge o.gs f 0 nsweep [] o j f' k :=
  sweeps_spec hN hk (fun h => (hS h).1) f nsweep 0 ⟨o, [], none⟩ f
    ⟨rfl, rfl, fun h => absurd h (by omega), fun h => absurd h (by omega), fun h => (hS h).2⟩ hd
    ⟨fun h => h.imp id Or.inl, by
      rintro (h | h | ⟨i, h1, h2, _⟩)
      · exact Or.inl h
      · exact Or.inr h
      · omega⟩ (fun h _ => h)

/-- C88, proved part. Sweeps are made until an even sweep meets the goals that are set, or a file is found, or all have been made; the energy returned
is the one found last. This does not depend on what the observer was used for before, and the observer can be used again. With both goals set both have
to be met; sweeps of odd number are not looked at; the entropy has to be measured if it has a goal. -/
theorem C88_stop_partial {c : Calc} (hN : 2 ≤ c.N) {fuel : Nat} (hk : 2 * c.N ≤ fuel) (nsweep : Nat) (o : Obs) (hd : o.done = false)
    (hS : 0 < o.gs → c.silent = false ∧ o.printeigs = true) (f : Files) :
    ∃ j f' k, dmrg c fuel nsweep o f = some (.ok (j, f', k)) ∧ k ≤ nsweep ∧ (∀ i, 1 ≤ i → i < k → ¬ (Met c o.ge o.gs i ∨ Found c f i)) ∧
      ((1 ≤ k ∧ (Met c o.ge o.gs k ∨ Found c f k)) ∨ k = nsweep) ∧ (1 ≤ k → j.energy = some (E c k)) ∧
      j.obs.ge = o.ge ∧ j.obs.gs = o.gs ∧ j.obs.printeigs = o.printeigs ∧ (f.stopAll = false → (∀ i, (c.created i).stopAll = false) → j.obs.done = false) := by
  obtain ⟨j, f', k, e, h⟩ := dmrg_spec hN hk nsweep o hd hS f
  exact ⟨j, f', k, e, by have := h.le_end; omega, fun i a b => h.before i (by omega) b, h.why.imp (fun h => ⟨h.1, h.2⟩) fun h => by omega,
    fun a => h.energy a, h.goalE, h.goalS, h.printeigs, h.done⟩

/-- After every sweep of a calculation that is not silent the largest number of states and the largest truncation error of that sweep are reported, if
the observer is new or has been used for such calculations only. -/
theorem C88_report {c : Calc} (hN : 2 ≤ c.N) {fuel : Nat} (hk : 2 * c.N ≤ fuel) (nsweep : Nat) (o : Obs) (hd : o.done = false) (hr : Ready o) (hs : c.silent = false)
    (hS : 0 < o.gs → o.printeigs = true) (f : Files) :
    ∃ j f' k, dmrg c fuel nsweep o f = some (.ok (j, f', k)) ∧ j.out.length = k ∧ (∀ i r, j.out[i]? = some r → IsReport c (i + 1) r) ∧ Ready j.obs := by
  obtain ⟨j, f', k, e, h⟩ := dmrg_spec hN hk nsweep o hd (fun h => ⟨hs, hS h⟩) f
  obtain ⟨g1, rs, g2, g3, g4⟩ := h.report hs hr
  rw [List.nil_append] at g2
  refine ⟨j, f', k, e, by rw [g2, g3]; rfl, fun i r hi => ?_, g1⟩
  rw [g2] at hi
  have := g4 i r hi
  rwa [zero_add] at this

/-- Once `STOP_DMRG_ALL` has been found, every calculation with this observer ends after one sweep. -/
theorem C88_all {c : Calc} (hN : 2 ≤ c.N) {fuel : Nat} (hk : 2 * c.N ≤ fuel) (nsweep : Nat) (o : Obs) (hd : o.done = true) (f : Files) :
    ∃ j f', dmrg c fuel (nsweep + 1) o f = some (.ok (j, f', 1)) ∧ j.obs.done = true := by
  rw [dmrg, sweeps, bonds_spec c (0 + 1) hN hk]
  dsimp only
  have hsame : Same o (after c (0 + 1) (order c.N) ⟨o, [], none⟩).obs := after_same c (0 + 1) (order c.N) ⟨o, [], none⟩
  set j1 := after c (0 + 1) (order c.N) ⟨o, [], none⟩
  have hd1 : j1.obs.done = true := hsame.done.trans hd
  have : ∀ (e : ℝ) (f : Files), ∃ o' f', checkDone (0 + 1) e j1.obs f = .ok (true, o', f') ∧ o'.done = true := by
    intro e f
    simp only [checkDone, zero_add, if_true, Nat.one_mod, one_ne_zero, false_and, and_false, if_false, Res.bind_ok, Bool.false_eq_true]
    unfold checkFiles
    dsimp only
    split_ifs
    · exact ⟨_, _, rfl, hd1⟩
    · exact ⟨_, _, rfl, rfl⟩
    · exact ⟨{ j1.obs with lastE := e, lastS := j1.obs.S, done := true }, f, by simp only [hd1], rfl⟩
  obtain ⟨o', f', e, hd'⟩ := this (j1.energy.getD 0) ⟨f.stop || (c.created (0 + 1)).stop, f.stopAll || (c.created (0 + 1)).stopAll⟩
  rw [e]
  exact ⟨_, _, rfl, hd'⟩

/-- The file `STOP_DMRG` that ends a calculation is removed, unless the goals are met by the same sweep. -/
theorem C88_files_partial {c : Calc} (hN : 2 ≤ c.N) {fuel : Nat} (hk : 2 * c.N ≤ fuel) (nsweep : Nat) (o : Obs) (hd : o.done = false)
    (hS : 0 < o.gs → c.silent = false ∧ o.printeigs = true) (f : Files) :
    ∃ j f' k, dmrg c fuel nsweep o f = some (.ok (j, f', k)) ∧ (1 ≤ k → ¬ Met c o.ge o.gs k → f'.stop = false) := by
  obtain ⟨j, f', k, e, h⟩ := dmrg_spec hN hk nsweep o hd hS f
  exact ⟨j, f', k, e, h.clean⟩

/-! ## The entropy -/

theorem foldl_sum (l : List ℝ) : ∀ a : ℝ, l.foldl (fun x p => x + p) a = a + l.sum := by
  induction l with
  | nil => intro a; simp
  | cons p l ih => intro a; rw [List.foldl_cons, ih, List.sum_cons]; ring

theorem foldl_log (l : List ℝ) : ∀ a : ℝ, l.foldl (fun S p => if p > 1E-13 then S + p * Real.log p else S) a = a - (l.map fun p => if p > 1E-13 then Real.negMulLog p else 0).sum := by
  induction l with
  | nil => intro a; simp
  | cons p l ih =>
    intro a
    rw [List.foldl_cons, ih, List.map_cons, List.sum_cons]
    split_ifs
    · rw [Real.negMulLog]; ring
    · ring

theorem entropy_eq (l : List ℝ) : entropy l = ((l.map fun p => p / l.sum).map fun p => if p > 1E-13 then Real.negMulLog p else 0).sum := by
  unfold entropy
  dsimp only
  rw [foldl_sum, zero_add, foldl_log]
  ring

/-- The entropy that is printed is between zero and the logarithm of the number of states, and the eigenvalues above `1E-13` are those that count. -/
theorem C88_entropy (l : List ℝ) (h0 : ∀ p ∈ l, 0 ≤ p) (h1 : 0 < l.sum) :
    0 ≤ entropy l ∧ entropy l ≤ Real.log l.length ∧ ((∀ p ∈ l, p = 0 ∨ p / l.sum > 1E-13) → entropy l = (l.map fun p => Real.negMulLog (p / l.sum)).sum) := by
  have hp : ∀ p ∈ l, 0 ≤ p / l.sum ∧ p / l.sum ≤ 1 := fun p hp => ⟨div_nonneg (h0 p hp) h1.le, by
    rw [div_le_one h1]; exact List.single_le_sum h0 p hp⟩
  rw [entropy_eq, List.map_map]
  refine ⟨?_, ?_, fun h => ?_⟩
  · refine List.sum_nonneg fun x hx => ?_
    obtain ⟨p, hm, rfl⟩ := List.mem_map.1 hx
    simp only [Function.comp]
    split_ifs
    · exact Real.negMulLog_nonneg (hp p hm).1 (hp p hm).2
    · exact le_rfl
  · have hlen : 0 < l.length := by
      rcases l with _ | ⟨a, l⟩
      · simp at h1
      · simp
    have e1 : (l.map ((fun p => if p > 1E-13 then Real.negMulLog p else 0) ∘ fun p => p / l.sum)).sum ≤ (l.map fun p => Real.negMulLog (p / l.sum)).sum := by
      refine List.sum_le_sum fun p hm => ?_
      simp only [Function.comp]
      split_ifs
      · exact le_rfl
      · exact Real.negMulLog_nonneg (hp p hm).1 (hp p hm).2
    refine e1.trans ?_
    have hn : (0 : ℝ) < l.length := by exact_mod_cast hlen
    have j := Real.concaveOn_negMulLog.le_map_sum (t := Finset.univ) (w := fun _ : Fin l.length => (l.length : ℝ)⁻¹) (p := fun i => l[i] / l.sum)
      (fun _ _ => (inv_pos.2 hn).le) (by simp [hn.ne']) (fun i _ => (hp _ (List.getElem_mem _)).1)
    have s1 : ∑ i : Fin l.length, l[i] / l.sum = 1 := by
      rw [← Finset.sum_div]
      have : ∑ i : Fin l.length, l[i] = l.sum := by
        have := Fin.sum_univ_getElem l
        simpa using this
      rw [this, div_self h1.ne']
    have s2 : ∑ i : Fin l.length, Real.negMulLog (l[i] / l.sum) = (l.map fun p => Real.negMulLog (p / l.sum)).sum := by
      have := Fin.sum_univ_fun_getElem l (fun p => Real.negMulLog (p / l.sum))
      simpa using this
    simp only [smul_eq_mul, ← Finset.mul_sum] at j
    rw [s1, s2, mul_one, Real.negMulLog, Real.log_inv] at j
    have := mul_le_mul_of_nonneg_left j hn.le
    rw [← mul_assoc, mul_inv_cancel₀ hn.ne', one_mul] at this
    refine this.trans (le_of_eq ?_)
    field_simp
  · congr 1
    refine List.map_congr_left fun p hm => ?_
    simp only [Function.comp]
    rcases h p hm with h | h
    · rw [h, zero_div]; simp
    · rw [if_pos h]

/-! ## What goes wrong -/

def noFiles : Files := ⟨false, false⟩

/-- A chain of two sites with the given energies and eigenvalues; nobody creates files. -/
def simple (e : Nat → ℝ) (p : Nat → List ℝ) : Calc := ⟨2, false, fun s _ _ => ⟨e s, ⟨p s, 0⟩⟩, fun _ => noFiles⟩

theorem not_found (e : Nat → ℝ) (p : Nat → List ℝ) (s : Nat) : ¬ Found (simple e p) noFiles s := by
  rintro (h | h | ⟨i, _, _, h | h⟩) <;> exact absurd h (by simp [noFiles, simple])

theorem stops_at {c : Calc} (hN : 2 ≤ c.N) {fuel : Nat} (hk : 2 * c.N ≤ fuel) (nsweep : Nat) (o : Obs) (hd : o.done = false)
    (hS : 0 < o.gs → c.silent = false ∧ o.printeigs = true) (f : Files) {m : Nat} (h1 : 1 ≤ m) (h2 : m ≤ nsweep) (h3 : Met c o.ge o.gs m ∨ Found c f m)
    (h4 : ∀ i, 1 ≤ i → i < m → ¬ (Met c o.ge o.gs i ∨ Found c f i)) :
    ∃ j f', dmrg c fuel nsweep o f = some (.ok (j, f', m)) ∧ Ended c o.ge o.gs f 0 nsweep [] o j f' m := by
  obtain ⟨j, f', k, e, h⟩ := dmrg_spec hN hk nsweep o hd hS f
  have : k = m := by
    by_contra hne
    by_cases hlt : k < m
    · rcases h.why with h' | h'
      · exact h4 k h'.1 hlt h'.2
      · omega
    · exact h.before m (by omega) (by omega) h3
  subst this
  exact ⟨j, f', e, h⟩

theorem never {c : Calc} (hN : 2 ≤ c.N) {fuel : Nat} (hk : 2 * c.N ≤ fuel) (nsweep : Nat) (o : Obs) (hd : o.done = false)
    (hS : 0 < o.gs → c.silent = false ∧ o.printeigs = true) (f : Files) (h4 : ∀ i, 1 ≤ i → ¬ (Met c o.ge o.gs i ∨ Found c f i)) :
    ∃ j f', dmrg c fuel nsweep o f = some (.ok (j, f', nsweep)) := by
  obtain ⟨j, f', k, e, h⟩ := dmrg_spec hN hk nsweep o hd hS f
  rcases h.why with h' | h'
  · exact absurd h'.2 (h4 k h'.1)
  · rw [zero_add] at h'
    subst h'
    exact ⟨j, f', e⟩

/-- The goal for the energy is met by the third sweep, but four are made: only the sweeps of even number are looked at. -/
theorem C88_odd_counterexample : ∃ c : Calc, |E c 3 - E c 2| < 1E-8 ∧ ∃ j f', dmrg c 4 10 (Obs.new 1E-8 (-1) true) noFiles = some (.ok (j, f', 4)) := by
  refine ⟨simple (fun s => if s = 1 then 5 else 1) fun _ => [1], by norm_num [E, simple], ?_⟩
  obtain ⟨j, f', e, _⟩ := stops_at (c := simple (fun s => if s = 1 then 5 else 1) fun _ => [1]) (by simp [simple]) (fuel := 4) (by simp [simple]) 10 (Obs.new 1E-8 (-1) true) rfl
    (fun h => by norm_num [Obs.new] at h) noFiles (m := 4) (by omega) (by omega) (Or.inl ⟨rfl, Or.inl (by norm_num [Obs.new, E, simple])⟩) (by
      intro i h1 h2 h
      rcases h with h | h
      · have : i = 2 := by have := h.1; omega
        subst this
        have := h.2
        norm_num [Obs.new, E, simple] at this
      · exact not_found _ _ i h)
  exact ⟨j, f', e⟩

theorem entropy_one : entropy [1] = 0 := by
  rw [entropy_eq]
  simp

theorem entropy_two : entropy [1, 1] = Real.log 2 := by
  rw [entropy_eq]
  norm_num [Real.negMulLog]
  rw [one_div, Real.log_inv]
  ring

/-- With both goals set the energy is the same after every sweep, but the calculation never stops as the entropy is not: the comment has it that one
of the goals suffices. -/
theorem C88_both_counterexample : ∃ c : Calc, (∀ s, E c s = E c 1) ∧ ∀ n, ∃ j f', dmrg c 4 n (Obs.new 1E-8 1E-8 true) noFiles = some (.ok (j, f', n)) := by
  refine ⟨simple (fun _ => 1) fun s => if s % 2 = 0 then [1] else [1, 1], fun s => rfl, fun n => ?_⟩
  refine never (by simp [simple]) (by simp [simple]) n _ rfl (fun _ => ⟨rfl, rfl⟩) noFiles fun i h1 h => ?_
  rcases h with ⟨h2, h⟩ | h
  · have hs : S (simple (fun _ => 1) fun s => if s % 2 = 0 then [1] else [1, 1]) i = 0 := by
      simp only [S, simple, h2, if_true]
      exact entropy_one
    have hs' : S (simple (fun _ => 1) fun s => if s % 2 = 0 then [1] else [1, 1]) (i - 1) = Real.log 2 := by
      simp only [S, simple]
      rw [if_neg (by omega)]
      exact entropy_two
    have hl := Real.log_two_gt_d9
    rw [hs, hs', zero_sub, abs_neg, abs_of_pos (a := Real.log 2) (by linarith)] at h
    rcases h with h | h | h
    · have := h.2.1
      norm_num [Obs.new] at this
    · have := h.1
      norm_num [Obs.new] at this
    · have := h.2.2.2
      norm_num [Obs.new] at this
      linarith
  · exact not_found _ _ i h

/-- With `EntropyErrgoal` zero the goal for the energy is never looked at. -/
theorem C88_zero_counterexample : ∃ c : Calc, (∀ s, E c s = E c 1) ∧ ∀ n, ∃ j f', dmrg c 4 n (Obs.new 1E-8 0 true) noFiles = some (.ok (j, f', n)) := by
  refine ⟨simple (fun _ => 1) fun _ => [1], fun s => rfl, fun n => ?_⟩
  refine never (by simp [simple]) (by simp [simple]) n _ rfl (fun h => by norm_num [Obs.new] at h) noFiles fun i h1 h => ?_
  rcases h with ⟨h2, h⟩ | h
  · norm_num [Obs.new] at h
  · exact not_found _ _ i h

/-- Without `PrintEigs` the entropy is never measured: with a goal for it a number is used that has not been initialized. -/
theorem C88_uninit_counterexample (e : Nat → ℝ) (p : Nat → List ℝ) (n : Nat) : dmrg (simple e p) 4 (n + 2) (Obs.new (-1) 1E-8 false) noFiles = some .ub := by
  have hN : 2 ≤ (simple e p).N := by simp [simple]
  have hk : 2 * (simple e p).N ≤ 4 := by simp [simple]
  rw [dmrg, sweeps, bonds_spec _ _ hN hk]
  dsimp only
  have s1 := after_same (simple e p) (0 + 1) (order (simple e p).N) ⟨Obs.new (-1) 1E-8 false, [], none⟩
  have v1 := after_S (simple e p) (0 + 1) (order (simple e p).N) ⟨Obs.new (-1) 1E-8 false, [], none⟩
  set j1 := after (simple e p) (0 + 1) (order (simple e p).N) ⟨Obs.new (-1) 1E-8 false, [], none⟩
  have w1 : j1.obs.S = none := by rw [v1, if_neg (by simp [Obs.new])]; rfl
  have d1 : j1.obs.done = false := s1.done
  have c1 : ∀ x, checkDone (0 + 1) x j1.obs ⟨noFiles.stop || ((simple e p).created (0 + 1)).stop, noFiles.stopAll || ((simple e p).created (0 + 1)).stopAll⟩ =
      .ok (false, { j1.obs with lastE := x, lastS := none }, ⟨false, false⟩) := by
    intro x
    simp [checkDone, checkFiles, noFiles, simple, w1, d1]
  rw [c1]
  dsimp only
  rw [if_neg (by simp), sweeps, bonds_spec _ _ hN hk]
  dsimp only
  generalize hj0 : (⟨{ j1.obs with lastE := j1.energy.getD 0, lastS := none }, j1.out, j1.energy⟩ : Job) = j0
  have s2 := after_same (simple e p) (0 + 1 + 1) (order (simple e p).N) j0
  have v2 := after_S (simple e p) (0 + 1 + 1) (order (simple e p).N) j0
  have p0 : j0.obs.printeigs = false := by rw [← hj0]; exact s1.printeigs
  have S0 : j0.obs.S = none := by rw [← hj0]; exact w1
  have g0 : j0.obs.ge = -1 ∧ j0.obs.gs = 1E-8 := by rw [← hj0]; exact ⟨s1.ge, s1.gs⟩
  set j2 := after (simple e p) (0 + 1 + 1) (order (simple e p).N) j0
  have w2 : j2.obs.S = none := by rw [v2, if_neg (by simp [p0]), S0]
  have g2 : j2.obs.ge = -1 ∧ j2.obs.gs = 1E-8 := ⟨s2.ge.trans g0.1, s2.gs.trans g0.2⟩
  have c2 : ∀ x f, checkDone (0 + 1 + 1) x j2.obs f = .ub := by
    intro x f
    norm_num [checkDone, w2, g2.1, g2.2, diff, Res.map, Res.bind]
  rw [c2]

/-- The goal is met by the sweep during which somebody creates `STOP_DMRG`: the file stays, and the next calculation with any observer, although nobody
asks it to stop, ends after one sweep. -/
theorem C88_left_counterexample : ∃ c : Calc, ∃ j f', dmrg c 4 10 (Obs.new 1E-8 (-1) true) noFiles = some (.ok (j, f', 2)) ∧
    ∀ e p (o : Obs), o.done = false → o.gs < 0 → ∃ j' f'', dmrg (simple e p) 4 10 o f' = some (.ok (j', f'', 1)) := by
  set c : Calc := ⟨2, false, fun s _ _ => ⟨1, ⟨[1], 0⟩⟩, fun s => ⟨decide (s = 2), false⟩⟩ with hc
  have hm : Met c 1E-8 (-1) 2 := ⟨rfl, Or.inl (by norm_num [E, hc])⟩
  obtain ⟨j, f', e, h⟩ := stops_at (c := c) le_rfl (fuel := 4) le_rfl 10 (Obs.new 1E-8 (-1) true) rfl (fun h => by norm_num [Obs.new] at h) noFiles (m := 2)
    (by omega) (by omega) (Or.inl hm) (by
      intro i h1 h2 h
      obtain rfl : i = 1 := by omega
      rcases h with h | h | h | ⟨i, a1, a2, a3 | a3⟩
      · exact absurd h.1 (by omega)
      · simp [noFiles] at h
      · simp [noFiles] at h
      · simp [hc] at a3; omega
      · simp [hc] at a3)
  refine ⟨c, j, f', e, fun en p o hd hg => ?_⟩
  have hl := (h.left (by omega) hm).2 (Or.inr (Or.inr ⟨2, by omega, le_rfl, Or.inl (by simp [hc])⟩))
  obtain ⟨j', f'', e', _⟩ := stops_at (c := simple en p) (by simp [simple]) (fuel := 4) (by simp [simple]) 10 o hd (fun h => by linarith) f' (m := 1) (by omega) (by omega)
    (Or.inr (hl.imp id Or.inl)) (fun i h1 h2 => by omega)
  exact ⟨j', f'', e'⟩

/-! ## Concrete cases -/

/-- The energies 3, 2, 2: two sweeps are not enough, as the second still lowers the energy; the fourth meets the goal. -/
example : ∃ j f' k, dmrg (simple (fun s => if s ≤ 1 then 3 else 2) fun _ => [1]) 4 10 (Obs.new 1E-8 (-1) true) noFiles = some (.ok (j, f', k)) ∧ k ≤ 10 ∧ 3 ≤ k := by
  obtain ⟨j, f', k, e, h1, _, h2, _⟩ := C88_stop_partial (c := simple (fun s => if s ≤ 1 then 3 else 2) fun _ => [1]) (by simp [simple]) (fuel := 4) (by simp [simple]) 10
    (Obs.new 1E-8 (-1) true) rfl (fun h => by norm_num [Obs.new] at h) noFiles
  refine ⟨j, f', k, e, h1, ?_⟩
  rcases h2 with ⟨a, ⟨b, c⟩ | b⟩ | b
  · by_contra hk
    obtain rfl : k = 2 := by omega
    norm_num [Obs.new, E, simple] at c
  · exact absurd b (not_found _ _ k)
  · omega

example : ∃ j f' k, dmrg (simple (fun s => s) fun s => List.replicate s 1) 4 10 (Obs.new (-1) (-1) true) noFiles = some (.ok (j, f', k)) ∧ j.out.length = k ∧
    (∀ i r, j.out[i]? = some r → IsReport (simple (fun s => s) fun s => List.replicate s 1) (i + 1) r) ∧ Ready j.obs :=
  C88_report (by simp [simple]) (by simp [simple]) 10 _ rfl ⟨rfl, rfl⟩ rfl (fun h => by norm_num [Obs.new] at h) noFiles

example : 0 ≤ entropy [1 / 2, 1 / 4, 1 / 4] ∧ entropy [1 / 2, 1 / 4, 1 / 4] ≤ Real.log 3 := by
  have := C88_entropy [1 / 2, 1 / 4, 1 / 4] (by norm_num) (by norm_num)
  exact ⟨this.1, by simpa using this.2.1⟩

example : ∃ j f', dmrg (simple (fun s => s) fun _ => [1]) 4 10 { Obs.new 1 (-1) true with done := true } noFiles = some (.ok (j, f', 1)) ∧ j.obs.done = true :=
  C88_all (by simp [simple]) (by simp [simple]) 9 _ rfl noFiles

end Verif.Observer
