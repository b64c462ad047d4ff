import Verif.MPS.LimitsProps
import Verif.MPS.LocalMPOSet

/-!
# The bookkeeping of a DMRG calculation

`DMRGWorker` (dmrg.h:337-470) as a sequence of calls of `MPS::position`, `LocalMPO::position`, `svdBond` and `sweepnext`. The
eigensolver and the factorization are an arbitrary function of the state and of the environments, which gives the two new tensors at a
bond and a value (the energy), or an error.
-/

namespace Verif.Dmrg

open Limits (MPS Dir)

variable {T E V : Type*}

/-- One round of the loop over bonds: the bond, the half sweep, the tensors of the state, and the environments the eigensolver is
given, and the energy. -/
structure Entry (T E V : Type*) where
  b : Int
  ha : Int
  t : Int → T
  L : Option E
  R : Option E
  en : V

/-- The state, the projected operator, and what was done so far. -/
structure Job (T E V : Type*) where
  psi : MPS T
  PH : LocalMPO.State E
  log : List (Entry T E V)

/-- What the calculation depends on: how environments are made, the new tensors at a bond (with the number of rounds before), whether
the option to write to disk applies in a sweep, and what `normalize` does to a tensor. -/
structure Env (T E V : Type*) where
  absorb : Int → Option E → T → E
  fac : Nat → MPS T → Option E → Option E → Int → Dir → Res ((T × T) × V)
  write : Nat → Bool
  norm : T → T

/-- The body of the loop over bonds. dmrg.h:405-447 -/
def body (env : Env T E V) (j : Job T E V) (b ha : Int) : Res (Job T E V) :=
  (LocalMPO.position env.absorb b j.psi.t j.PH).bind fun PH =>
    let d := if ha = 1 then Dir.left else Dir.right
    (env.fac j.log.length j.psi (LocalMPO.getL PH) (LocalMPO.getR PH) b d).bind fun p =>
      (Limits.svdBond j.psi b p.1 d).bind fun psi =>
        .ok ⟨psi, PH, j.log ++ [⟨b, ha, j.psi.t, LocalMPO.getL PH, LocalMPO.getR PH, p.2⟩]⟩

/-- `for(int b = 1, ha = 1; ha <= 2; sweepnext(b,ha,N))`; `none` when not finished after the given number of rounds.
dmrg.h:405, sweeps.h:486-498 -/
def bonds (env : Env T E V) : Nat → Int → Int → Job T E V → Option (Res (Job T E V))
  | 0, _, ha, j => if ha ≤ 2 then none else some (.ok j)
  | n + 1, b, ha, j =>
    if ha ≤ 2 then
      match body env j b ha with
      | .ok j => bonds env n (Sweeps.next j.psi.N 2 1 (b, ha)).1 (Sweeps.next j.psi.N 2 1 (b, ha)).2 j
      | .throw => some .throw
      | .ub => some .ub
    else some (.ok j)

/-- One sweep. dmrg.h:376-447 -/
def sweep (env : Env T E V) (fuel sw : Nat) (j : Job T E V) : Option (Res (Job T E V)) :=
  if j.PH.write = false ∧ env.write sw = true then
    match LocalMPO.doWrite j.PH true with
    | .ok PH => bonds env fuel 1 1 { j with PH := PH }
    | .throw => some .throw
    | .ub => some .ub
  else bonds env fuel 1 1 j

/-- The loop over sweeps: `n` more, after `sw`. A calculation that the observer stops is one with fewer sweeps. dmrg.h:376-463 -/
def sweeps (env : Env T E V) (fuel : Nat) : Nat → Nat → Job T E V → Option (Res (Job T E V))
  | 0, _, j => some (.ok j)
  | n + 1, sw, j =>
    match sweep env fuel (sw + 1) j with
    | some (.ok j) => sweeps env fuel n (sw + 1) j
    | some .throw => some .throw
    | some .ub => some .ub
    | none => none

/-- `psi.normalize()`: the centre has to be defined. mps.cc:163-170, 1046-1053 -/
def normalize (env : Env T E V) (j : Job T E V) : Res (Job T E V) :=
  (Limits.orthoCenter j.psi).bind fun _ => (Limits.scale j.psi env.norm).bind fun psi => .ok { j with psi := psi }

/-- `DMRGWorker`. dmrg.h:337-470 -/
def dmrg (o : Limits.Ops T) (env : Env T E V) (fuel n : Nat) (psi : MPS T) (PH : LocalMPO.State E) : Option (Res (Job T E V)) :=
  match Limits.position o psi 1 with
  | .throw => some .throw
  | .ub => some .ub
  | .ok psi => match sweeps env fuel n 0 ⟨psi, PH, []⟩ with
    | some (.ok j) => some (normalize env j)
    | r => r

/-! ## The invariant -/

variable {o : Limits.Ops T} {LO RO : T → Prop}

/-- The projected operator fits the state: it was last positioned at `w`. -/
structure Fits (absorb : Int → Option E → T → E) (psi : MPS T) (PH : LocalMPO.State E) (w : Option Int) : Prop where
  inv : LocalMPO.Mem absorb none none psi.t PH ∨ LocalMPO.Disk absorb psi.t PH
  N : PH.N = psi.N
  nc : PH.nc = 2
  op : PH.op = true
  pos : ∀ b, w = some b → PH.L = b - 1 ∧ PH.R = b + 2
  free : w = none → PH.L = 0 ∧ PH.R = psi.N + 1

/-- What the factorization at a bond gives. -/
def Good (o : Limits.Ops T) (LO RO : T → Prop) (env : Env T E V) : Prop :=
  ∀ k psi L R (b : Int) d, Limits.Sound o LO RO psi → 1 ≤ b → b < psi.N →
    ∃ p v, env.fac k psi L R b d = .ok (p, v) ∧ (Limits.Call.svdBond b p d).Ok o LO RO psi

/-- The same when it is given the environments of a state in the right gauge, with a property of the state and of the log that the
calculation keeps. -/
def GoodQ (o : Limits.Ops T) (LO RO : T → Prop) (env : Env T E V) (Q : MPS T → List (Entry T E V) → Prop) : Prop :=
  ∀ psi log (b ha : Int) d, Limits.Sound o LO RO psi → Q psi log → 1 ≤ b → b < psi.N → b - 1 ≤ psi.l → psi.r ≤ b + 2 →
    ∃ p v, env.fac log.length psi (LocalMPO.lE env.absorb none psi.t (b - 1)) (LocalMPO.rE env.absorb none psi.t psi.N (b + 2)) b d = .ok (p, v) ∧
      (Limits.Call.svdBond b p d).Ok o LO RO psi ∧
      ∀ psi', Limits.svdBond psi b p d = .ok psi' →
        Q psi' (log ++ [⟨b, ha, psi.t, LocalMPO.lE env.absorb none psi.t (b - 1), LocalMPO.rE env.absorb none psi.t psi.N (b + 2), v⟩])

theorem Good.toQ {env : Env T E V} (h : Good o LO RO env) : GoodQ o LO RO env fun _ _ => True := by
  intro psi log b ha d hs _ h1 h2 _ _
  obtain ⟨p, v, e, hp⟩ := h log.length psi _ _ b d hs h1 h2
  exact ⟨p, v, e, hp, fun _ _ => trivial⟩

/-- The environments of an entry are those of its state. -/
def Right (absorb : Int → Option E → T → E) (N : Nat) (e : Entry T E V) : Prop :=
  e.L = LocalMPO.lE absorb none e.t (e.b - 1) ∧ e.R = LocalMPO.rE absorb none e.t N (e.b + 2)

theorem fits_position {absorb : Int → Option E → T → E} {psi : MPS T} {PH : LocalMPO.State E} {w : Option Int} (h : Fits absorb psi PH w)
    {b : Int} (h1 : 1 ≤ b) (h2 : b < psi.N) (hw : ∀ a, w = some a → b - a ≤ 1 ∧ a - b ≤ 1) :
    ∃ PH', LocalMPO.position absorb b psi.t PH = .ok PH' ∧ Fits absorb psi PH' (some b) ∧
      LocalMPO.getL PH' = LocalMPO.lE absorb none psi.t (b - 1) ∧ LocalMPO.getR PH' = LocalMPO.rE absorb none psi.t psi.N (b + 2) := by
  have hN := h.N
  have hnc := h.nc
  rcases h.inv with hm | hm
  · obtain ⟨PH', e, m, l, r, c, n, op⟩ := LocalMPO.position_mem hm h1 (by omega) (by omega)
    refine ⟨PH', e, ⟨Or.inl m, n.trans hN, c.trans hnc, op.trans h.op, ?_, by simp⟩, ?_, ?_⟩
    · rintro b' hb'; cases hb'; exact ⟨l, by omega⟩
    · rw [LocalMPO.getL, m.left _ m.lo le_rfl, l]
    · rw [LocalMPO.getR, m.right _ le_rfl m.hi, r, n, hN, hnc]
  · have hj : b - 1 ≠ PH.R ∧ b + PH.nc ≠ PH.L := by
      cases w with
      | none => have := h.free rfl; omega
      | some a => have := h.pos a rfl; have := hw a rfl; omega
    obtain ⟨PH', e, m, l, r, c, n⟩ := LocalMPO.position_disk hm h1 (by omega) (by omega) hj.1 hj.2
    refine ⟨PH', e, ⟨Or.inr m, n.trans hN, c.trans hnc, m.op, ?_, by simp⟩, ?_, ?_⟩
    · rintro b' hb'; cases hb'; exact ⟨l, by omega⟩
    · rw [LocalMPO.getL, m.curL, l]
    · rw [LocalMPO.getR, m.curR, r, n, hN, hnc]

theorem fits_change {absorb : Int → Option E → T → E} {psi psi' : MPS T} {PH : LocalMPO.State E} {b : Int}
    (h : Fits absorb psi PH (some b)) (hN : psi'.N = psi.N) (ht : ∀ i, i < b ∨ b + 2 ≤ i → psi'.t i = psi.t i) :
    Fits absorb psi' PH (some b) := by
  obtain ⟨hl, hr⟩ := h.pos b rfl
  have key : ∀ i : Int, 1 ≤ i → i ≤ PH.N → i ≤ PH.L ∨ PH.R ≤ i → psi'.t i = psi.t i := fun i _ _ h3 => ht i (by omega)
  exact ⟨h.inv.imp (fun m => m.change key) (fun m => m.change key), h.N.trans hN.symm, h.nc, h.op, h.pos, by simp⟩

variable {Q : MPS T → List (Entry T E V) → Prop}

/-- A round of the loop. -/
theorem body_spec {env : Env T E V} (hg : GoodQ o LO RO env Q) {j : Job T E V} {w : Option Int}
    (hs : Limits.Sound o LO RO j.psi) (hq : Q j.psi j.log) (hf : Fits env.absorb j.psi j.PH w) {b ha : Int} (h1 : 1 ≤ b) (h2 : b < j.psi.N)
    (hw : ∀ a, w = some a → b - a ≤ 1 ∧ a - b ≤ 1) (hla : b - 1 ≤ j.psi.l) (hra : j.psi.r ≤ b + 2) (hh : ha = 1 ∨ ha = 2) :
    ∃ j', body env j b ha = .ok j' ∧ Limits.Sound o LO RO j'.psi ∧ Q j'.psi j'.log ∧ Fits env.absorb j'.psi j'.PH (some b) ∧ j'.psi.N = j.psi.N ∧
      (ha = 1 → j'.psi.l = b ∧ j'.psi.r = max j.psi.r (b + 2)) ∧ (ha = 2 → j'.psi.l = min j.psi.l (b - 1) ∧ j'.psi.r = b + 1) ∧
      ∃ e, j'.log = j.log ++ [e] ∧ e.b = b ∧ e.ha = ha ∧ e.t = j.psi.t ∧ Right env.absorb j.psi.N e := by
  obtain ⟨PH', e1, f1, g1, g2⟩ := fits_position hf h1 h2 hw
  unfold body
  rw [e1]
  simp only [Res.bind_ok]
  generalize hd : (if ha = 1 then Dir.left else Dir.right) = d
  obtain ⟨p, v, efac, hok, hkeep⟩ := hg j.psi j.log b ha d hs hq h1 h2 hla hra
  rw [g1, g2, efac]
  simp only [Res.bind_ok]
  have hdl : d = .left ↔ ha = 1 := by
    subst hd; by_cases h : ha = 1 <;> simp [h]
  have hdr : d = .right ↔ ha ≠ 1 := by
    subst hd; by_cases h : ha = 1 <;> simp [h]
  obtain ⟨psi', e2⟩ : ∃ psi', Limits.svdBond j.psi b p d = .ok psi' := by
    unfold Limits.svdBond
    have hi := hs.hi
    rw [if_neg (by omega), if_neg (by omega), if_neg (by omega)]
    cases d with
    | left => exact ⟨_, rfl⟩
    | right => exact ⟨_, rfl⟩
  rw [e2]
  simp only [Res.bind_ok]
  obtain ⟨s', hN, ht, hl, hr⟩ := Limits.svdBond_sound hs hok e2
  refine ⟨_, rfl, s', hkeep _ e2, fits_change f1 hN fun i hi => ?_, hN, fun h => hl (hdl.mpr h), fun h => hr (hdr.mpr (by omega)), _, rfl, rfl,
    rfl, rfl, rfl, rfl⟩
  rw [ht, Limits.set2_ne _ _ (by omega) (by omega)]

/-- The bonds of a sweep, in order. -/
def order (N : Nat) : List (Int × Int) :=
  (List.range (N - 1)).map (fun (i : Nat) => ((i : Int) + 1, 1)) ++ (List.range (N - 1)).map (fun (i : Nat) => ((N : Int) - 1 - i, 2))

/-- What is added to the log is right, and what it says was done. -/
def Added (absorb : Int → Option E → T → E) (N : Nat) (j j' : Job T E V) (seq : List (Int × Int)) : Prop :=
  ∃ l : List (Entry T E V), j'.log = j.log ++ l ∧ (l.map fun e => (e.b, e.ha)) = seq ∧ ∀ e ∈ l, Right absorb N e

theorem Added.trans {absorb : Int → Option E → T → E} {N : Nat} {j j' j'' : Job T E V} {s s' : List (Int × Int)}
    (h : Added absorb N j j' s) (h' : Added absorb N j' j'' s') : Added absorb N j j'' (s ++ s') := by
  obtain ⟨l, e, m, r⟩ := h
  obtain ⟨l', e', m', r'⟩ := h'
  refine ⟨l ++ l', by rw [e', e, List.append_assoc], by rw [List.map_append, m, m'], fun x hx => ?_⟩
  rcases List.mem_append.mp hx with hx | hx
  · exact r x hx
  · exact r' x hx

theorem Added.nil {absorb : Int → Option E → T → E} {N : Nat} {j j' : Job T E V} (h : j'.log = j.log) : Added absorb N j j' [] :=
  ⟨[], by simp [h], rfl, by simp⟩

/-- The second half of a sweep, from bond `b` on. -/
theorem bonds_down {env : Env T E V} (hg : GoodQ o LO RO env Q) : ∀ (n : Nat) (j : Job T E V) (w : Option Int) (k : Nat),
    Limits.Sound o LO RO j.psi → Q j.psi j.log → Fits env.absorb j.psi j.PH w → n < j.psi.N →
    (∀ a, w = some a → (n : Int) - a ≤ 1 ∧ a - n ≤ 1) → n ≤ k → 1 ≤ n → j.psi.l = n → j.psi.r = n + 2 →
    ∃ j', bonds env k n 2 j = some (.ok j') ∧ Limits.Sound o LO RO j'.psi ∧ Q j'.psi j'.log ∧ Fits env.absorb j'.psi j'.PH (some 1) ∧
      j'.psi.N = j.psi.N ∧ j'.psi.l = 0 ∧ j'.psi.r = 2 ∧
      Added env.absorb j.psi.N j j' ((List.range n).map fun (i : Nat) => ((n : Int) - i, 2)) := by
  intro n
  induction n with
  | zero => intro j w k _ _ _ _ _ _ h; omega
  | succ n ih =>
    intro j w k hs hq hf hN hw hk _ hl hr
    obtain ⟨k, rfl⟩ : ∃ k', k = k' + 1 := ⟨k - 1, by omega⟩
    obtain ⟨j1, e1, s1, q1, f1, n1, _, lr, e, hlog, hb, hh, _, hR⟩ := body_spec hg hs hq hf (b := ((n + 1 : Nat) : Int)) (ha := 2)
      (by push_cast; omega) (by omega) hw (by push_cast; omega) (by push_cast; omega) (Or.inr rfl)
    obtain ⟨hl1, hr1⟩ := lr rfl
    have ha1 : Added env.absorb j.psi.N j j1 [(((n + 1 : Nat) : Int), 2)] :=
      ⟨[e], hlog, by simp [hb, hh], by simpa using hR⟩
    rw [bonds, if_pos (by omega), e1]
    simp only
    by_cases hn : n = 0
    · subst hn
      have hnx : Sweeps.next (j1.psi.N : Int) 2 1 (((0 + 1 : Nat) : Int), 2) = (1, 3) := by
        simp [Sweeps.next]
      rw [hnx]
      have : bonds env k 1 3 j1 = some (.ok j1) := by
        cases k <;> simp [bonds]
      simp only
      rw [this]
      refine ⟨j1, rfl, s1, q1, by simpa using f1, n1, by push_cast at *; omega, by push_cast at *; omega, ?_⟩
      simpa using ha1
    · have hnx : Sweeps.next (j1.psi.N : Int) 2 1 (((n + 1 : Nat) : Int), 2) = ((n : Int), 2) := by
        simp only [Sweeps.next, show ¬ ((2 : Int) = 1) by decide, if_false]
        rw [if_neg (by push_cast; omega)]
        push_cast
        congr 1
        ring
      rw [hnx]
      simp only
      obtain ⟨j2, e2, s2, q2, f2, n2, l2, r2, a2⟩ := ih j1 _ k s1 q1 f1 (by omega) (by
        intro a h; cases h; push_cast; omega) (by omega) (by omega) (by push_cast at *; omega) (by push_cast at *; omega)
      refine ⟨j2, e2, s2, q2, f2, n2.trans n1, l2, r2, ?_⟩
      rw [n1] at a2
      have := ha1.trans a2
      convert this using 1
      rw [List.range_succ_eq_map, List.map_cons, List.map_map]
      simp only [List.singleton_append, Nat.cast_zero, sub_zero, List.cons.injEq, true_and]
      refine List.map_congr_left fun i _ => ?_
      simp only [Function.comp, Nat.succ_eq_add_one]
      push_cast
      congr 1
      ring

/-- The first half of a sweep, from bond `b` on, and the second half. -/
theorem bonds_up {env : Env T E V} (hg : GoodQ o LO RO env Q) : ∀ (n : Nat) (j : Job T E V) (w : Option Int) (k b : Nat),
    Limits.Sound o LO RO j.psi → Q j.psi j.log → Fits env.absorb j.psi j.PH w → 1 ≤ b → b + n + 1 = j.psi.N →
    (∀ a, w = some a → (b : Int) - a ≤ 1 ∧ a - b ≤ 1) → n + j.psi.N ≤ k → j.psi.l = (b : Int) - 1 → j.psi.r = b + 1 →
    ∃ j', bonds env k b 1 j = some (.ok j') ∧ Limits.Sound o LO RO j'.psi ∧ Q j'.psi j'.log ∧ Fits env.absorb j'.psi j'.PH (some 1) ∧
      j'.psi.N = j.psi.N ∧ j'.psi.l = 0 ∧ j'.psi.r = 2 ∧
      Added env.absorb j.psi.N j j' ((List.range (n + 1)).map (fun (i : Nat) => ((b : Int) + i, 1)) ++
        (List.range (j.psi.N - 1)).map fun (i : Nat) => ((j.psi.N : Int) - 1 - i, 2)) := by
  intro n
  induction n with
  | zero =>
    intro j w k b hs hq hf hb1 hN hw hk hl hr
    obtain ⟨k, rfl⟩ : ∃ k', k = k' + 1 := ⟨k - 1, by omega⟩
    obtain ⟨j1, e1, s1, q1, f1, n1, lr, _, e, hlog, hb, hh, _, hR⟩ := body_spec hg hs hq hf (b := (b : Int)) (ha := 1)
      (by omega) (by omega) hw (by omega) (by omega) (Or.inl rfl)
    obtain ⟨hl1, hr1⟩ := lr rfl
    have ha1 : Added env.absorb j.psi.N j j1 [((b : Int), 1)] := ⟨[e], hlog, by simp [hb, hh], by simpa using hR⟩
    rw [bonds, if_pos (by omega), e1]
    simp only
    have hnx : Sweeps.next (j1.psi.N : Int) 2 1 ((b : Int), 1) = ((b : Int), 2) := by
      simp only [Sweeps.next, if_true]
      rw [if_pos (by omega)]
      norm_num
    rw [hnx]
    simp only
    obtain ⟨j2, e2, s2, q2, f2, n2, l2, r2, a2⟩ := bonds_down hg b j1 _ k s1 q1 f1 (by omega) (by
      intro a h; cases h; omega) (by omega) hb1 (by omega) (by omega)
    refine ⟨j2, e2, s2, q2, f2, n2.trans n1, l2, r2, ?_⟩
    rw [n1] at a2
    have := ha1.trans a2
    convert this using 1
    have hb' : j.psi.N - 1 = b := by omega
    have hb'' : (j.psi.N : Int) - 1 = b := by omega
    simp [hb', hb'']
  | succ n ih =>
    intro j w k b hs hq hf hb1 hN hw hk hl hr
    obtain ⟨k, rfl⟩ : ∃ k', k = k' + 1 := ⟨k - 1, by omega⟩
    obtain ⟨j1, e1, s1, q1, f1, n1, lr, _, e, hlog, hb, hh, _, hR⟩ := body_spec hg hs hq hf (b := (b : Int)) (ha := 1)
      (by omega) (by omega) hw (by omega) (by omega) (Or.inl rfl)
    obtain ⟨hl1, hr1⟩ := lr rfl
    have ha1 : Added env.absorb j.psi.N j j1 [((b : Int), 1)] := ⟨[e], hlog, by simp [hb, hh], by simpa using hR⟩
    rw [bonds, if_pos (by omega), e1]
    simp only
    have hnx : Sweeps.next (j1.psi.N : Int) 2 1 ((b : Int), 1) = (((b + 1 : Nat) : Int), 1) := by
      simp only [Sweeps.next, if_true]
      rw [if_neg (by omega)]
      push_cast
      rfl
    rw [hnx]
    simp only
    obtain ⟨j2, e2, s2, q2, f2, n2, l2, r2, a2⟩ := ih j1 _ k (b + 1) s1 q1 f1 (by omega) (by omega) (by
      intro a h; cases h; push_cast; omega) (by omega) (by push_cast; omega) (by push_cast; omega)
    refine ⟨j2, e2, s2, q2, f2, n2.trans n1, l2, r2, ?_⟩
    rw [n1] at a2
    have := ha1.trans a2
    convert this using 1
    rw [List.range_succ_eq_map, List.map_cons, List.map_map]
    simp only [List.cons_append, List.nil_append, Nat.cast_zero, add_zero, List.cons.injEq, true_and, List.append_cancel_right_eq]
    refine List.map_congr_left fun i _ => ?_
    simp only [Function.comp, Nat.succ_eq_add_one]
    push_cast
    congr 1
    ring

theorem sweep_spec {env : Env T E V} (hg : GoodQ o LO RO env Q) {j : Job T E V} {w : Option Int} {k sw : Nat}
    (hs : Limits.Sound o LO RO j.psi) (hq : Q j.psi j.log) (hf : Fits env.absorb j.psi j.PH w) (hw : w = none ∨ w = some 1) (hN : 2 ≤ j.psi.N)
    (hk : 2 * j.psi.N ≤ k) (hl : j.psi.l = 0) (hr : j.psi.r = 2) :
    ∃ j', sweep env k sw j = some (.ok j') ∧ Limits.Sound o LO RO j'.psi ∧ Q j'.psi j'.log ∧ Fits env.absorb j'.psi j'.PH (some 1) ∧
      j'.psi.N = j.psi.N ∧ j'.psi.l = 0 ∧ j'.psi.r = 2 ∧ Added env.absorb j.psi.N j j' (order j.psi.N) := by
  have main : ∀ j : Job T E V, Limits.Sound o LO RO j.psi → Q j.psi j.log → Fits env.absorb j.psi j.PH w → 2 ≤ j.psi.N →
      2 * j.psi.N ≤ k → j.psi.l = 0 → j.psi.r = 2 → 
      ∃ j', bonds env k 1 1 j = some (.ok j') ∧ Limits.Sound o LO RO j'.psi ∧ Q j'.psi j'.log ∧ Fits env.absorb j'.psi j'.PH (some 1) ∧
      j'.psi.N = j.psi.N ∧ j'.psi.l = 0 ∧ j'.psi.r = 2 ∧ Added env.absorb j.psi.N j j' (order j.psi.N) := by
    intro j hs hq hf hN hk hl hr
    obtain ⟨j', e, h1, h1q, h2, h3, h4, h5, h6⟩ := bonds_up hg (j.psi.N - 2) j w k 1 hs hq hf le_rfl (by omega) (by
      rcases hw with rfl | rfl
      · simp
      · intro a h; cases h; norm_num) (by omega) (by rw [hl]; rfl) (by rw [hr]; rfl)
    refine ⟨j', e, h1, h1q, h2, h3, h4, h5, ?_⟩
    convert h6 using 1
    unfold order
    have : j.psi.N - 2 + 1 = j.psi.N - 1 := by omega
    rw [this]
    congr 1
    refine List.map_congr_left fun i _ => ?_
    push_cast
    congr 1
    ring
  unfold sweep
  by_cases hc : j.PH.write = false ∧ env.write sw = true
  · rw [if_pos hc]
    rcases hf.inv with hm | hm
    · have e : LocalMPO.doWrite j.PH true = .ok { j.PH with write := true, file := fun _ => none } := by
        unfold LocalMPO.doWrite
        rw [if_neg (by simp [hf.op]), if_pos ⟨hc.1, rfl⟩]
      obtain ⟨d, l, r, n, c⟩ := hm.disk e
      rw [e]
      simp only
      obtain ⟨j', h⟩ := main { j with PH := { j.PH with write := true, file := fun _ => none } } hs hq
        ⟨Or.inr d, n.trans hf.N, c.trans hf.nc, d.op, fun b h => ⟨l.trans (hf.pos b h).1, r.trans (hf.pos b h).2⟩,
          fun h => ⟨l.trans (hf.free h).1, r.trans (hf.free h).2⟩⟩ hN hk hl hr
      exact ⟨j', h⟩
    · exact absurd hm.write (by simp [hc.1])
  · rw [if_neg hc]
    exact main j hs hq hf hN hk hl hr

theorem sweeps_spec {env : Env T E V} (hg : GoodQ o LO RO env Q) {k : Nat} : ∀ (n sw : Nat) (j : Job T E V) (w : Option Int),
    Limits.Sound o LO RO j.psi → Q j.psi j.log → Fits env.absorb j.psi j.PH w → (w = none ∨ w = some 1) → 2 ≤ j.psi.N →
    2 * j.psi.N ≤ k → j.psi.l = 0 → j.psi.r = 2 →
    ∃ j', sweeps env k n sw j = some (.ok j') ∧ Limits.Sound o LO RO j'.psi ∧ Q j'.psi j'.log ∧
      j'.psi.N = j.psi.N ∧ j'.psi.l = 0 ∧ j'.psi.r = 2 ∧
      Added env.absorb j.psi.N j j' (List.replicate n (order j.psi.N)).flatten := by
  intro n
  induction n with
  | zero => intro sw j w hs hq hf hw hN hk hl hr; exact ⟨j, rfl, hs, hq, rfl, hl, hr, Added.nil rfl⟩
  | succ n ih =>
    intro sw j w hs hq hf hw hN hk hl hr
    obtain ⟨j1, e1, s1, q1, f1, n1, l1, r1, a1⟩ := sweep_spec (sw := sw + 1) hg hs hq hf hw hN hk hl hr
    rw [sweeps, e1]
    simp only
    obtain ⟨j2, e2, s2, q2, n2, l2, r2, a2⟩ := ih (sw + 1) j1 _ s1 q1 f1 (Or.inr rfl) (by omega) (by omega) l1 r1
    refine ⟨j2, e2, s2, q2, n2.trans n1, l2, r2, ?_⟩
    rw [n1] at a2
    have := a1.trans a2
    rwa [List.replicate_succ, List.flatten_cons]

/-- A calculation which keeps a property; the result before and after the final normalization. -/
theorem dmrg_keeps {env : Env T E V} (f : Limits.Factor o LO RO) (hg : GoodQ o LO RO env Q) {psi psi1 : MPS T} (hs : Limits.Reach o LO RO psi) (hN : 2 ≤ psi.N)
    (e1' : Limits.position o psi 1 = .ok psi1) (hq : Q psi1 []) (n : Nat) {fuel : Nat} (hf : 2 * psi.N ≤ fuel) :
    ∃ j2 : Job T E V, dmrg o env fuel n psi (LocalMPO.make psi.N none none 2 true) =
        some (.ok { j2 with psi := { j2.psi with t := Function.update j2.psi.t 1 (env.norm (j2.psi.t 1)) } }) ∧
      Limits.Sound o LO RO j2.psi ∧ Q j2.psi j2.log ∧ j2.psi.N = psi.N ∧ j2.psi.l = 0 ∧ j2.psi.r = 2 ∧
      (j2.log.map fun e => (e.b, e.ha)) = (List.replicate n (order psi.N)).flatten ∧ ∀ e ∈ j2.log, Right env.absorb psi.N e := by
  have h0 := Limits.C40_limits f hs
  obtain ⟨psi1', e1, s1, n1, l1, r1, _⟩ := Limits.positionWith_spec (sL := Limits.stepL o) (sR := Limits.stepR o) (Q := fun _ => True) f
    (fun s h hl => Limits.stepL_eq h hl) (fun s h hl => Limits.stepR_eq h hl) (fun _ _ _ _ => trivial) (fun _ _ _ _ => trivial) h0
    (i := 1) le_rfl (by omega) trivial
  obtain rfl : psi1' = psi1 := by
    have : Limits.position o psi 1 = .ok psi1' := e1
    rw [e1'] at this
    exact (Res.ok.inj this).symm
  obtain ⟨j2, e2, s2, q2, n2, l2, r2, a2⟩ := sweeps_spec hg n 0 (⟨psi1', LocalMPO.make psi.N none none 2 true, []⟩ : Job T E V) none s1 hq
    ⟨Or.inl LocalMPO.Mem.make, n1.symm, rfl, rfl, by simp, fun _ => ⟨rfl, by simp [LocalMPO.make, n1]⟩⟩ (Or.inl rfl) (by simp only; omega)
    (k := fuel) (by simp only; omega) (by simp only; omega) (by simp only; omega)
  simp only at n2 a2
  unfold dmrg
  rw [e1']
  simp only
  rw [e2]
  simp only
  have hc : Limits.orthoCenter j2.psi = .ok 1 := by
    unfold Limits.orthoCenter Limits.isOrtho
    rw [if_pos (by simp only [decide_eq_true_eq]; omega), l2]
    rfl
  obtain ⟨l, hl, hm, hr⟩ := a2
  simp only [List.nil_append] at hl
  unfold normalize
  rw [hc]
  simp only [Res.bind_ok]
  have hlk : j2.psi.l + 1 = 1 := by omega
  have esc : Limits.scale j2.psi env.norm = .ok { j2.psi with t := Function.update j2.psi.t 1 (env.norm (j2.psi.t 1)) } := by
    unfold Limits.scale
    rw [hlk, Limits.ref_eq (by omega) (by omega)]
    simp only [Res.bind_ok, hlk, Res.ok.injEq, Limits.MPS.mk.injEq, true_and]
    omega
  rw [esc]
  simp only [Res.bind_ok]
  refine ⟨j2, rfl, s2, q2, n2.trans n1, l2, r2, ?_, ?_⟩
  · rw [hl, hm, n1]
  · intro e he
    rw [hl] at he
    have := hr e he
    rwa [n1] at this

/-- C62. A DMRG calculation on at least two sites, with any number of sweeps, any factorizations, and writing to disk turned on in any
sweep or not, never fails in its bookkeeping. In every sweep all bonds are visited in order, left to right and back; at each of
them the eigensolver is given the environments of the current state. It ends with the centre at site 1. -/
theorem C62_dmrg {env : Env T E V} (f : Limits.Factor o LO RO) (hg : Good o LO RO env)
    (hn : (∀ a b, o.link a b → o.link (env.norm a) b) ∧ (∀ a b, o.link a b → o.link a (env.norm b)))
    {psi : MPS T} (hs : Limits.Reach o LO RO psi) (hN : 2 ≤ psi.N) (n : Nat) {fuel : Nat} (hf : 2 * psi.N ≤ fuel) :
    ∃ j, dmrg o env fuel n psi (LocalMPO.make psi.N none none 2 true) = some (.ok j) ∧
      (j.log.map fun e => (e.b, e.ha)) = (List.replicate n (order psi.N)).flatten ∧
      (∀ e ∈ j.log, e.L = LocalMPO.lE env.absorb none e.t (e.b - 1) ∧ e.R = LocalMPO.rE env.absorb none e.t psi.N (e.b + 2)) ∧
      Limits.orthoCenter j.psi = .ok 1 ∧ (∀ i : Int, 2 ≤ i → i ≤ psi.N → RO (j.psi.t i)) := by
  have h0 := Limits.C40_limits f hs
  obtain ⟨psi1, e1, _⟩ := Limits.positionWith_spec (sL := Limits.stepL o) (sR := Limits.stepR o) (Q := fun _ => True) f
    (fun s h hl => Limits.stepL_eq h hl) (fun s h hl => Limits.stepR_eq h hl) (fun _ _ _ _ => trivial) (fun _ _ _ _ => trivial) h0
    (i := 1) le_rfl (by omega) trivial
  obtain ⟨j2, e, s2, -, n2, l2, r2, hm, hr⟩ := dmrg_keeps f hg.toQ hs hN e1 trivial n hf
  refine ⟨_, e, hm, hr, ?_, ?_⟩
  · unfold Limits.orthoCenter Limits.isOrtho
    rw [if_pos (by simp only [decide_eq_true_eq]; omega), l2]
    rfl
  · intro i h1 h2
    simp only
    rw [Function.update_of_ne (by omega)]
    exact s2.right i (by omega) (by omega)

end Verif.Dmrg
