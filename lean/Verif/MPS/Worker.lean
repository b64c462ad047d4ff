import Verif.MPS.Dmrg

/-!
# `DMRGWorker` for any projected operator

`DMRGWorker` (dmrg.h:337-470) is a template: the projected operator is a `LocalMPO` (`Dmrg.lean`), a `LocalMPOSet` or a `LocalMPO_MPS`.
Here it is any type with the functions the template calls. What the template needs of it is in `Proj`.
-/

namespace Verif.Worker

open Limits (MPS Dir)

variable {T P G V : Type*}

/-- One round of the loop over bonds: the bond, the half sweep, the tensors of the state, what the eigensolver is given, and the energy. -/
structure Entry (T G V : Type*) where
  b : Int
  ha : Int
  t : Int → T
  g : G
  en : V

/-- The state, the projected operator, and what was done so far. -/
structure Job (T P G V : Type*) where
  psi : MPS T
  PH : P
  log : List (Entry T G V)

/-- What the calculation depends on: `position`, `doWrite()` and `doWrite(true)` of the projected operator, what of it the eigensolver
uses, the new tensors at a bond (with the number of rounds before), whether the option to write to disk applies in a sweep, and what
`normalize` does to a tensor. -/
structure Env (T P G V : Type*) where
  pos : Int → (Int → T) → P → Res P
  give : P → G
  isW : P → Res Bool
  doW : P → Res P
  fac : Nat → MPS T → G → Int → Dir → Res ((T × T) × V)
  write : Nat → Bool
  norm : T → T

/-- The body of the loop over bonds. dmrg.h:405-447 -/
def body (env : Env T P G V) (j : Job T P G V) (b ha : Int) : Res (Job T P G V) :=
  (env.pos b j.psi.t j.PH).bind fun PH =>
    let d := if ha = 1 then Dir.left else Dir.right
    (env.fac j.log.length j.psi (env.give PH) b d).bind fun p =>
      (Limits.svdBond j.psi b p.1 d).bind fun psi =>
        .ok ⟨psi, PH, j.log ++ [⟨b, ha, j.psi.t, env.give PH, p.2⟩]⟩

/-- `for(int b = 1, ha = 1; ha <= 2; sweepnext(b,ha,N))`; `none` when not finished after the given number of rounds.
dmrg.h:405, sweeps.h:486-498 -/
def bonds (env : Env T P G V) : Nat → Int → Int → Job T P G V → Option (Res (Job T P G V))
  | 0, _, ha, j => if ha ≤ 2 then none else some (.ok j)
  | n + 1, b, ha, j =>
    if ha ≤ 2 then
      match body env j b ha with
      | .ok j => bonds env n (Sweeps.next j.psi.N 2 1 (b, ha)).1 (Sweeps.next j.psi.N 2 1 (b, ha)).2 j
      | .throw => some .throw
      | .ub => some .ub
    else some (.ok j)

/-- `if(!PH.doWrite() && args.defined("WriteDim") && sweeps.maxdim(sw) >= args.getInt("WriteDim")) PH.doWrite(true,args);`
dmrg.h:387-403 -/
def toDisk (env : Env T P G V) (sw : Nat) (PH : P) : Res P :=
  (env.isW PH).bind fun w => if w = false ∧ env.write sw = true then env.doW PH else .ok PH

/-- One sweep. dmrg.h:376-447 -/
def sweep (env : Env T P G V) (fuel sw : Nat) (j : Job T P G V) : Option (Res (Job T P G V)) :=
  match toDisk env sw j.PH with
  | .ok PH => bonds env fuel 1 1 { j with PH := PH }
  | .throw => some .throw
  | .ub => some .ub

/-- The loop over sweeps: `n` more, after `sw`. A calculation that the observer stops is one with fewer sweeps. dmrg.h:376-463 -/
def sweeps (env : Env T P G V) (fuel : Nat) : Nat → Nat → Job T P G V → Option (Res (Job T P G V))
  | 0, _, j => some (.ok j)
  | n + 1, sw, j =>
    match sweep env fuel (sw + 1) j with
    | some (.ok j) => sweeps env fuel n (sw + 1) j
    | some .throw => some .throw
    | some .ub => some .ub
    | none => none

/-- `psi.normalize()`: the centre has to be defined. mps.cc:163-170, 1046-1053 -/
def normalize (env : Env T P G V) (j : Job T P G V) : Res (Job T P G V) :=
  (Limits.orthoCenter j.psi).bind fun _ => (Limits.scale j.psi env.norm).bind fun psi => .ok { j with psi := psi }

/-- `DMRGWorker`. dmrg.h:337-470 -/
def dmrg (o : Limits.Ops T) (env : Env T P G V) (fuel n : Nat) (psi : MPS T) (PH : P) : Option (Res (Job T P G V)) :=
  match Limits.position o psi 1 with
  | .throw => some .throw
  | .ub => some .ub
  | .ok psi => match sweeps env fuel n 0 ⟨psi, PH, []⟩ with
    | some (.ok j) => some (normalize env j)
    | r => r

/-! ## The invariant -/

variable {o : Limits.Ops T} {LO RO : T → Prop}

/-- What is needed of a projected operator: `F psi PH w` says that it fits the state and was last positioned at `w`; `g psi b` is what
the eigensolver should be given at bond `b`. -/
structure Proj (env : Env T P G V) (F : MPS T → P → Option Int → Prop) (g : MPS T → Int → G) : Prop where
  pos : ∀ {psi PH w}, F psi PH w → ∀ {b : Int}, 1 ≤ b → b < psi.N → (∀ a, w = some a → b - a ≤ 1 ∧ a - b ≤ 1) →
    ∃ PH', env.pos b psi.t PH = .ok PH' ∧ F psi PH' (some b) ∧ env.give PH' = g psi b
  change : ∀ {psi psi' PH} {b : Int}, F psi PH (some b) → psi'.N = psi.N → (∀ i, i < b ∨ b + 2 ≤ i → psi'.t i = psi.t i) → F psi' PH (some b)
  disk : ∀ {psi PH w}, F psi PH w → ∀ sw, ∃ PH', toDisk env sw PH = .ok PH' ∧ F psi PH' w

/-- What the factorization at a bond gives when the eigensolver is given what it should be, with a property of the state and of the log
that the calculation keeps. -/
def GoodQ (o : Limits.Ops T) (LO RO : T → Prop) (env : Env T P G V) (g : MPS T → Int → G) (Q : MPS T → List (Entry T G V) → Prop) : Prop :=
  ∀ psi log (b ha : Int) d, Limits.Sound o LO RO psi → Q psi log → 1 ≤ b → b < psi.N → b - 1 ≤ psi.l → psi.r ≤ b + 2 →
    ∃ p v, env.fac log.length psi (g psi b) b d = .ok (p, v) ∧ (Limits.Call.svdBond b p d).Ok o LO RO psi ∧
      ∀ psi', Limits.svdBond psi b p d = .ok psi' → Q psi' (log ++ [⟨b, ha, psi.t, g psi b, v⟩])

variable {Q : MPS T → List (Entry T G V) → Prop} {F : MPS T → P → Option Int → Prop} {g : MPS T → Int → G}

/-- A round of the loop. -/
theorem body_spec {env : Env T P G V} (hF : Proj env F g) (hg : GoodQ o LO RO env g Q) {j : Job T P G V} {w : Option Int}
    (hs : Limits.Sound o LO RO j.psi) (hq : Q j.psi j.log) (hf : F j.psi j.PH w) {b ha : Int} (h1 : 1 ≤ b) (h2 : b < j.psi.N)
    (hw : ∀ a, w = some a → b - a ≤ 1 ∧ a - b ≤ 1) (hla : b - 1 ≤ j.psi.l) (hra : j.psi.r ≤ b + 2) (hh : ha = 1 ∨ ha = 2) :
    ∃ j', body env j b ha = .ok j' ∧ Limits.Sound o LO RO j'.psi ∧ Q j'.psi j'.log ∧ F j'.psi j'.PH (some b) ∧ j'.psi.N = j.psi.N ∧
      (ha = 1 → j'.psi.l = b ∧ j'.psi.r = max j.psi.r (b + 2)) ∧ (ha = 2 → j'.psi.l = min j.psi.l (b - 1) ∧ j'.psi.r = b + 1) ∧
      ∃ e, j'.log = j.log ++ [e] ∧ e.b = b ∧ e.ha = ha := by
  obtain ⟨PH', e1, f1, g1⟩ := hF.pos hf h1 h2 hw
  unfold body
  rw [e1]
  simp only [Res.bind_ok]
  generalize hd : (if ha = 1 then Dir.left else Dir.right) = d
  obtain ⟨p, v, efac, hok, hkeep⟩ := hg j.psi j.log b ha d hs hq h1 h2 hla hra
  rw [g1, efac]
  simp only [Res.bind_ok]
  have hdl : d = .left ↔ ha = 1 := by
    subst hd; by_cases h : ha = 1 <;> simp [h]
  have hdr : d = .right ↔ ha ≠ 1 := by
    subst hd; by_cases h : ha = 1 <;> simp [h]
  obtain ⟨psi', e2⟩ : ∃ psi', Limits.svdBond j.psi b p d = .ok psi' := by
    unfold Limits.svdBond
    have hi := hs.hi
    rw [if_neg (by omega), if_neg (by omega), if_neg (by omega)]
    cases d with
    | left => exact ⟨_, rfl⟩
    | right => exact ⟨_, rfl⟩
  rw [e2]
  simp only [Res.bind_ok]
  obtain ⟨s', hN, ht, hl, hr⟩ := Limits.svdBond_sound hs hok e2
  refine ⟨_, rfl, s', hkeep _ e2, hF.change f1 hN fun i hi => ?_, hN, fun h => hl (hdl.mpr h), fun h => hr (hdr.mpr (by omega)), _, rfl, rfl, rfl⟩
  rw [ht, Limits.set2_ne _ _ (by omega) (by omega)]

/-- What is added to the log is right, and what it says was done. -/
def Added (j j' : Job T P G V) (seq : List (Int × Int)) : Prop :=
  ∃ l : List (Entry T G V), j'.log = j.log ++ l ∧ (l.map fun e => (e.b, e.ha)) = seq

theorem Added.trans {j j' j'' : Job T P G V} {s s' : List (Int × Int)}
    (h : Added j j' s) (h' : Added j' j'' s') : Added j j'' (s ++ s') := by
  obtain ⟨l, e, m⟩ := h
  obtain ⟨l', e', m'⟩ := h'
  exact ⟨l ++ l', by rw [e', e, List.append_assoc], by rw [List.map_append, m, m']⟩

theorem Added.nil {j j' : Job T P G V} (h : j'.log = j.log) : Added j j' [] :=
  ⟨[], by simp [h], rfl⟩

/-- The second half of a sweep, from bond `b` on. -/
theorem bonds_down {env : Env T P G V} (hF : Proj env F g) (hg : GoodQ o LO RO env g Q) : ∀ (n : Nat) (j : Job T P G V) (w : Option Int) (k : Nat),
    Limits.Sound o LO RO j.psi → Q j.psi j.log → F j.psi j.PH w → n < j.psi.N →
    (∀ a, w = some a → (n : Int) - a ≤ 1 ∧ a - n ≤ 1) → n ≤ k → 1 ≤ n → j.psi.l = n → j.psi.r = n + 2 →
    ∃ j', bonds env k n 2 j = some (.ok j') ∧ Limits.Sound o LO RO j'.psi ∧ Q j'.psi j'.log ∧ F j'.psi j'.PH (some 1) ∧
      j'.psi.N = j.psi.N ∧ j'.psi.l = 0 ∧ j'.psi.r = 2 ∧
      Added j j' ((List.range n).map fun (i : Nat) => ((n : Int) - i, 2)) := by
  intro n
  induction n with
  | zero => intro j w k _ _ _ _ _ _ h; omega
  | succ n ih =>
    intro j w k hs hq hf hN hw hk _ hl hr
    obtain ⟨k, rfl⟩ : ∃ k', k = k' + 1 := ⟨k - 1, by omega⟩
    obtain ⟨j1, e1, s1, q1, f1, n1, _, lr, e, hlog, hb, hh⟩ := body_spec hF hg hs hq hf (b := ((n + 1 : Nat) : Int)) (ha := 2)
      (by push_cast; omega) (by omega) hw (by push_cast; omega) (by push_cast; omega) (Or.inr rfl)
    obtain ⟨hl1, hr1⟩ := lr rfl
    have ha1 : Added j j1 [(((n + 1 : Nat) : Int), 2)] :=
      ⟨[e], hlog, by simp [hb, hh]⟩
    rw [bonds, if_pos (by omega), e1]
    simp only
    by_cases hn : n = 0
    · subst hn
      have hnx : Sweeps.next (j1.psi.N : Int) 2 1 (((0 + 1 : Nat) : Int), 2) = (1, 3) := by
        simp [Sweeps.next]
      rw [hnx]
      have : bonds env k 1 3 j1 = some (.ok j1) := by
        cases k <;> simp [bonds]
      simp only
      rw [this]
      refine ⟨j1, rfl, s1, q1, by simpa using f1, n1, by push_cast at *; omega, by push_cast at *; omega, ?_⟩
      simpa using ha1
    · have hnx : Sweeps.next (j1.psi.N : Int) 2 1 (((n + 1 : Nat) : Int), 2) = ((n : Int), 2) := by
        simp only [Sweeps.next, show ¬ ((2 : Int) = 1) by decide, if_false]
        rw [if_neg (by push_cast; omega)]
        push_cast
        congr 1
        ring
      rw [hnx]
      simp only
      obtain ⟨j2, e2, s2, q2, f2, n2, l2, r2, a2⟩ := ih j1 _ k s1 q1 f1 (by omega) (by
        intro a h; cases h; push_cast; omega) (by omega) (by omega) (by push_cast at *; omega) (by push_cast at *; omega)
      refine ⟨j2, e2, s2, q2, f2, n2.trans n1, l2, r2, ?_⟩
      have := ha1.trans a2
      convert this using 1
      rw [List.range_succ_eq_map, List.map_cons, List.map_map]
      simp only [List.singleton_append, Nat.cast_zero, sub_zero, List.cons.injEq, true_and]
      refine List.map_congr_left fun i _ => ?_
      simp only [Function.comp, Nat.succ_eq_add_one]
      push_cast
      congr 1
      ring

/-- The first half of a sweep, from bond `b` on, and the second half. -/
theorem bonds_up {env : Env T P G V} (hF : Proj env F g) (hg : GoodQ o LO RO env g Q) : ∀ (n : Nat) (j : Job T P G V) (w : Option Int) (k b : Nat),
    Limits.Sound o LO RO j.psi → Q j.psi j.log → F j.psi j.PH w → 1 ≤ b → b + n + 1 = j.psi.N →
    (∀ a, w = some a → (b : Int) - a ≤ 1 ∧ a - b ≤ 1) → n + j.psi.N ≤ k → j.psi.l = (b : Int) - 1 → j.psi.r = b + 1 →
    ∃ j', bonds env k b 1 j = some (.ok j') ∧ Limits.Sound o LO RO j'.psi ∧ Q j'.psi j'.log ∧ F j'.psi j'.PH (some 1) ∧
      j'.psi.N = j.psi.N ∧ j'.psi.l = 0 ∧ j'.psi.r = 2 ∧
      Added j j' ((List.range (n + 1)).map (fun (i : Nat) => ((b : Int) + i, 1)) ++
        (List.range (j.psi.N - 1)).map fun (i : Nat) => ((j.psi.N : Int) - 1 - i, 2)) := by
  intro n
  induction n with
  | zero =>
    intro j w k b hs hq hf hb1 hN hw hk hl hr
    obtain ⟨k, rfl⟩ : ∃ k', k = k' + 1 := ⟨k - 1, by omega⟩
    obtain ⟨j1, e1, s1, q1, f1, n1, lr, _, e, hlog, hb, hh⟩ := body_spec hF hg hs hq hf (b := (b : Int)) (ha := 1)
      (by omega) (by omega) hw (by omega) (by omega) (Or.inl rfl)
    obtain ⟨hl1, hr1⟩ := lr rfl
    have ha1 : Added j j1 [((b : Int), 1)] := ⟨[e], hlog, by simp [hb, hh]⟩
    rw [bonds, if_pos (by omega), e1]
    simp only
    have hnx : Sweeps.next (j1.psi.N : Int) 2 1 ((b : Int), 1) = ((b : Int), 2) := by
      simp only [Sweeps.next, if_true]
      rw [if_pos (by omega)]
      norm_num
    rw [hnx]
    simp only
    obtain ⟨j2, e2, s2, q2, f2, n2, l2, r2, a2⟩ := bonds_down hF hg b j1 _ k s1 q1 f1 (by omega) (by
      intro a h; cases h; omega) (by omega) hb1 (by omega) (by omega)
    refine ⟨j2, e2, s2, q2, f2, n2.trans n1, l2, r2, ?_⟩
    have := ha1.trans a2
    convert this using 1
    have hb' : j.psi.N - 1 = b := by omega
    have hb'' : (j.psi.N : Int) - 1 = b := by omega
    simp [hb', hb'']
  | succ n ih =>
    intro j w k b hs hq hf hb1 hN hw hk hl hr
    obtain ⟨k, rfl⟩ : ∃ k', k = k' + 1 := ⟨k - 1, by omega⟩
    obtain ⟨j1, e1, s1, q1, f1, n1, lr, _, e, hlog, hb, hh⟩ := body_spec hF hg hs hq hf (b := (b : Int)) (ha := 1)
      (by omega) (by omega) hw (by omega) (by omega) (Or.inl rfl)
    obtain ⟨hl1, hr1⟩ := lr rfl
    have ha1 : Added j j1 [((b : Int), 1)] := ⟨[e], hlog, by simp [hb, hh]⟩
    rw [bonds, if_pos (by omega), e1]
    simp only
    have hnx : Sweeps.next (j1.psi.N : Int) 2 1 ((b : Int), 1) = (((b + 1 : Nat) : Int), 1) := by
      simp only [Sweeps.next, if_true]
      rw [if_neg (by omega)]
      push_cast
      rfl
    rw [hnx]
    simp only
    obtain ⟨j2, e2, s2, q2, f2, n2, l2, r2, a2⟩ := ih j1 _ k (b + 1) s1 q1 f1 (by omega) (by omega) (by
      intro a h; cases h; push_cast; omega) (by omega) (by push_cast; omega) (by push_cast; omega)
    refine ⟨j2, e2, s2, q2, f2, n2.trans n1, l2, r2, ?_⟩
    rw [n1] at a2
    have := ha1.trans a2
    convert this using 1
    rw [List.range_succ_eq_map, List.map_cons, List.map_map]
    simp only [List.cons_append, List.nil_append, Nat.cast_zero, add_zero, List.cons.injEq, true_and, List.append_cancel_right_eq]
    refine List.map_congr_left fun i _ => ?_
    simp only [Function.comp, Nat.succ_eq_add_one]
    push_cast
    congr 1
    ring

theorem sweep_spec {env : Env T P G V} (hF : Proj env F g) (hg : GoodQ o LO RO env g Q) {j : Job T P G V} {w : Option Int} {k sw : Nat}
    (hs : Limits.Sound o LO RO j.psi) (hq : Q j.psi j.log) (hf : F j.psi j.PH w) (hw : w = none ∨ w = some 1) (hN : 2 ≤ j.psi.N)
    (hk : 2 * j.psi.N ≤ k) (hl : j.psi.l = 0) (hr : j.psi.r = 2) :
    ∃ j', sweep env k sw j = some (.ok j') ∧ Limits.Sound o LO RO j'.psi ∧ Q j'.psi j'.log ∧ F j'.psi j'.PH (some 1) ∧
      j'.psi.N = j.psi.N ∧ j'.psi.l = 0 ∧ j'.psi.r = 2 ∧ Added j j' (Dmrg.order j.psi.N) := by
  have main : ∀ j : Job T P G V, Limits.Sound o LO RO j.psi → Q j.psi j.log → F j.psi j.PH w → 2 ≤ j.psi.N →
      2 * j.psi.N ≤ k → j.psi.l = 0 → j.psi.r = 2 → 
      ∃ j', bonds env k 1 1 j = some (.ok j') ∧ Limits.Sound o LO RO j'.psi ∧ Q j'.psi j'.log ∧ F j'.psi j'.PH (some 1) ∧
      j'.psi.N = j.psi.N ∧ j'.psi.l = 0 ∧ j'.psi.r = 2 ∧ Added j j' (Dmrg.order j.psi.N) := by
    intro j hs hq hf hN hk hl hr
    obtain ⟨j', e, h1, h1q, h2, h3, h4, h5, h6⟩ := bonds_up hF hg (j.psi.N - 2) j w k 1 hs hq hf le_rfl (by omega) (by
      rcases hw with rfl | rfl
      · simp
      · intro a h; cases h; norm_num) (by omega) (by rw [hl]; rfl) (by rw [hr]; rfl)
    refine ⟨j', e, h1, h1q, h2, h3, h4, h5, ?_⟩
    convert h6 using 1
    unfold Dmrg.order
    have : j.psi.N - 2 + 1 = j.psi.N - 1 := by omega
    rw [this]
    congr 1
    refine List.map_congr_left fun i _ => ?_
    push_cast
    congr 1
    ring
  obtain ⟨PH', e, hf'⟩ := hF.disk hf sw
  unfold sweep
  rw [e]
  simp only
  exact main { j with PH := PH' } hs hq hf' hN hk hl hr

theorem sweeps_spec {env : Env T P G V} (hF : Proj env F g) (hg : GoodQ o LO RO env g Q) {k : Nat} : ∀ (n sw : Nat) (j : Job T P G V) (w : Option Int),
    Limits.Sound o LO RO j.psi → Q j.psi j.log → F j.psi j.PH w → (w = none ∨ w = some 1) → 2 ≤ j.psi.N →
    2 * j.psi.N ≤ k → j.psi.l = 0 → j.psi.r = 2 →
    ∃ j', sweeps env k n sw j = some (.ok j') ∧ Limits.Sound o LO RO j'.psi ∧ Q j'.psi j'.log ∧
      j'.psi.N = j.psi.N ∧ j'.psi.l = 0 ∧ j'.psi.r = 2 ∧
      Added j j' (List.replicate n (Dmrg.order j.psi.N)).flatten := by
  intro n
  induction n with
  | zero => intro sw j w hs hq hf hw hN hk hl hr; exact ⟨j, rfl, hs, hq, rfl, hl, hr, Added.nil rfl⟩
  | succ n ih =>
    intro sw j w hs hq hf hw hN hk hl hr
    obtain ⟨j1, e1, s1, q1, f1, n1, l1, r1, a1⟩ := sweep_spec (sw := sw + 1) hF hg hs hq hf hw hN hk hl hr
    rw [sweeps, e1]
    simp only
    obtain ⟨j2, e2, s2, q2, n2, l2, r2, a2⟩ := ih (sw + 1) j1 _ s1 q1 f1 (Or.inr rfl) (by omega) (by omega) l1 r1
    refine ⟨j2, e2, s2, q2, n2.trans n1, l2, r2, ?_⟩
    rw [n1] at a2
    have := a1.trans a2
    rwa [List.replicate_succ, List.flatten_cons]

/-- A calculation which keeps a property; the result before and after the final normalization. -/
theorem dmrg_keeps {env : Env T P G V} (f : Limits.Factor o LO RO) (hF : Proj env F g) (hg : GoodQ o LO RO env g Q) {psi psi1 : MPS T} (hs : Limits.Reach o LO RO psi) (hN : 2 ≤ psi.N)
    (e1' : Limits.position o psi 1 = .ok psi1) (hq : Q psi1 []) {PH : P} (hPH : F psi1 PH none) (n : Nat) {fuel : Nat} (hf : 2 * psi.N ≤ fuel) :
    ∃ j2 : Job T P G V, dmrg o env fuel n psi PH =
        some (.ok { j2 with psi := { j2.psi with t := Function.update j2.psi.t 1 (env.norm (j2.psi.t 1)) } }) ∧
      Limits.Sound o LO RO j2.psi ∧ Q j2.psi j2.log ∧ j2.psi.N = psi.N ∧ j2.psi.l = 0 ∧ j2.psi.r = 2 ∧
      (j2.log.map fun e => (e.b, e.ha)) = (List.replicate n (Dmrg.order psi.N)).flatten := by
  have h0 := Limits.C40_limits f hs
  obtain ⟨psi1', e1, s1, n1, l1, r1, _⟩ := Limits.positionWith_spec (sL := Limits.stepL o) (sR := Limits.stepR o) (Q := fun _ => True) f
    (fun s h hl => Limits.stepL_eq h hl) (fun s h hl => Limits.stepR_eq h hl) (fun _ _ _ _ => trivial) (fun _ _ _ _ => trivial) h0
    (i := 1) le_rfl (by omega) trivial
  obtain rfl : psi1' = psi1 := by
    have : Limits.position o psi 1 = .ok psi1' := e1
    rw [e1'] at this
    exact (Res.ok.inj this).symm
  obtain ⟨j2, e2, s2, q2, n2, l2, r2, a2⟩ := sweeps_spec hF hg n 0 (⟨psi1', PH, []⟩ : Job T P G V) none s1 hq
    hPH (Or.inl rfl) (by simp only; omega)
    (k := fuel) (by simp only; omega) (by simp only; omega) (by simp only; omega)
  simp only at n2 a2
  unfold dmrg
  rw [e1']
  simp only
  rw [e2]
  simp only
  have hc : Limits.orthoCenter j2.psi = .ok 1 := by
    unfold Limits.orthoCenter Limits.isOrtho
    rw [if_pos (by simp only [decide_eq_true_eq]; omega), l2]
    rfl
  obtain ⟨l, hl, hm⟩ := a2
  simp only [List.nil_append] at hl
  unfold normalize
  rw [hc]
  simp only [Res.bind_ok]
  have hlk : j2.psi.l + 1 = 1 := by omega
  have esc : Limits.scale j2.psi env.norm = .ok { j2.psi with t := Function.update j2.psi.t 1 (env.norm (j2.psi.t 1)) } := by
    unfold Limits.scale
    rw [hlk, Limits.ref_eq (by omega) (by omega)]
    simp only [Res.bind_ok, hlk, Res.ok.injEq, Limits.MPS.mk.injEq, true_and]
    omega
  rw [esc]
  simp only [Res.bind_ok]
  refine ⟨j2, rfl, s2, q2, n2.trans n1, l2, r2, ?_⟩
  rw [hl, hm, n1]


end Verif.Worker
