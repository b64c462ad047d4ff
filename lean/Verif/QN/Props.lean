import Verif.QN.Lemmas
import Mathlib.Tactic.ClearExcept

/-!
# Quantum numbers: properties C06, C07, C08, C09

Specification: a QN denotes a function from names to integers (`QN.val`, missing names are 0),
each value reduced modulo the modulus `M name` of its name.  `IsQN M q` says `q` is a QN the API
builds when every use of a name `n` comes with the same modulus `M n` (the code checks this only in
DEBUG builds).
-/

namespace Verif.QN

open Verif.TagSet (Tag)

/-- QNs built by the API with modulus `M n` for name `n`. -/
def IsQN (M : Name → Int) (q : QN) : Prop := ∃ l, WF M q l

/-- All names used by `a` and `b` together are at most four. -/
def FitsQ (a b : QN) : Prop := ∃ u : List Name, u.length ≤ 4 ∧
  (∀ v ∈ a, v.active = true → v.name ∈ u) ∧ (∀ v ∈ b, v.active = true → v.name ∈ u)

theorem WF.mem_active {M q l} (h : WF M q l) {v : QNum} : (v ∈ q ∧ v.active = true) ↔ v ∈ l := by
  rw [h.eq]
  constructor
  · rintro ⟨h1, h2⟩
    rcases List.mem_append.1 h1 with e | e
    · exact e
    · have := (List.mem_replicate.1 e).2; subst this; cases h2
  · intro hv
    exact ⟨List.mem_append_left _ hv, by simp [QNum.active, h.mod_ne v hv]⟩

theorem FitsQ.fits {M a b l m} (ha : WF M a l) (hb : WF M b m) (h : FitsQ a b) : Fits l m := by
  obtain ⟨u, hu, h1, h2⟩ := h
  refine ⟨u, hu, ?_, ?_⟩
  · intro n hn
    obtain ⟨v, hv, rfl⟩ := List.mem_map.1 hn
    have := ha.mem_active.2 hv; exact h1 v this.1 this.2
  · intro n hn
    obtain ⟨v, hv, rfl⟩ := List.mem_map.1 hn
    have := hb.mem_active.2 hv; exact h2 v this.1 this.2

/-! ## The API builds well-formed QNs -/

theorem isQN_default (M) : IsQN M QN.default := ⟨[], WF.default M⟩

theorem addNumLoop_skip (qv : QNum) (l : List QNum) : ∀ (k : Nat) (r : List QNum),
    addNumLoop qv (l.length + k) (l ++ List.replicate (k + 1) QNum.none ++ r) =
      addNumLoop qv l.length (l ++ List.replicate (k + 1) QNum.none ++ r) := by
  intro k
  induction k with
  | zero => intro r; rfl
  | succ k ih =>
    intro r
    have hg : (l ++ List.replicate (k + 1 + 1) QNum.none ++ r).getD (l.length + k) QNum.none
        = QNum.none := by
      simp [List.getD, List.getElem?_append, List.getElem?_replicate]
      rw [if_neg (by omega), if_pos (by omega), if_pos (by omega)]; rfl
    rw [← Nat.add_assoc, addNumLoop]
    simp only [hg]
    have hna : QNum.none.active = false := rfl
    simp only [hna, Bool.false_eq_true, if_false]
    have := ih (QNum.none :: r)
    have e : l ++ List.replicate (k + 1) QNum.none ++ QNum.none :: r
        = l ++ List.replicate (k + 1 + 1) QNum.none ++ r := by
      rw [List.replicate_succ' (n := k + 1)]; simp
    rw [e] at this
    exact this

theorem addNumLoop_ins (qv : QNum) (l : List QNum) : ∀ (x : QNum) (r : List QNum), NSorted l →
    (∀ v ∈ l, v.active = true) → (∀ v ∈ l, v.name ≠ qv.name) →
    addNumLoop qv l.length (l ++ x :: r) = .ok (ins qv l ++ r) := by
  generalize hn : l.length = n
  induction n generalizing l with
  | zero =>
    intro x r _ _ _
    have : l = [] := List.length_eq_zero_iff.1 hn
    subst this; simp [addNumLoop, ins]
  | succ n ih =>
    intro x r hs ha hne
    obtain ⟨l', y, rfl⟩ : ∃ l' y, l = l' ++ [y] := by
      refine ⟨l.dropLast, l.getLast (by intro e; subst e; simp at hn), ?_⟩
      exact (List.dropLast_concat_getLast _).symm
    have hl' : l'.length = n := by simpa using hn
    have hs' := List.pairwise_append.1 hs
    simp only [addNumLoop]
    have hg : ((l' ++ [y]) ++ x :: r).getD n QNum.none = y := by
      simp [List.getD, hl'.symm]
    rw [hg, if_pos (ha y (by simp)), if_neg (hne y (by simp))]
    have hnn : n + 1 = (l' ++ [y]).length := by simp [hl']
    by_cases hy : y.name.lt qv.name = true
    · simp only [hy, if_true]
      rw [hnn, List.set_append_right _ _ (Nat.le_refl _)]
      have : ins qv (l' ++ [y]) = l' ++ [y] ++ [qv] := by
        have hlt : ∀ z ∈ l' ++ [y], ¬ (qv.name.lt z.name = true) := by
          intro z hz
          simp only [Tag.lt, decide_eq_true_eq] at hy ⊢
          rcases List.mem_append.1 hz with h | h
          · have := hs'.2.2 z h y (by simp); omega
          · simp at h; subst h; omega
        clear * - hlt hne
        revert hlt hne
        generalize l' ++ [y] = w
        intro hne hlt
        induction w with
        | nil => rfl
        | cons a w ih =>
          simp only [ins, hne a (by simp), if_false, hlt a (by simp), List.cons_append]
          rw [ih (fun v hv => hne v (by simp [hv])) (fun v hv => hlt v (by simp [hv]))]
          rfl
      simp [this]
    · simp only [hy, Bool.false_eq_true, if_false]
      have hset : ((l' ++ [y]) ++ x :: r).set (n + 1) y = l' ++ y :: (y :: r) := by
        rw [hnn, List.set_append_right _ _ (Nat.le_refl _)]
        simp
      rw [hset, ih l' hl' y (y :: r) hs'.1 (fun v hv => ha v (by simp [hv]))
        (fun v hv => hne v (by simp [hv]))]
      congr 1
      have hyn := hne y (by simp)
      have hq : qv.name.lt y.name = true := by
        simp only [Tag.lt, decide_eq_true_eq] at hy ⊢
        have : y.name.key ≠ qv.name.key := fun e => hyn (Tag.key_inj e)
        omega
      have : ins qv (l' ++ [y]) = ins qv l' ++ [y] := by
        have hne' : ∀ v ∈ l', v.name ≠ qv.name := fun v hv => hne v (by simp [hv])
        clear * - hne' hyn hq
        induction l' with
        | nil => simp [ins, hyn, hq]
        | cons a w ih =>
          simp only [List.cons_append, ins, hne' a (by simp), if_false]
          split
          · rfl
          · rw [ih (fun v hv => hne' v (by simp [hv]))]; rfl
      rw [this]; simp

/-- `addNum` with a new name and a free slot succeeds and gives a QN with that value. -/
theorem isQN_addNum {M : Name → Int} {q : QN} {l : List QNum} (h : WF M q l) (n : Name) (v : Int)
    (hM : M n ≠ 0) (hn : ∀ w ∈ l, w.name ≠ n) (hl : l.length < 4) :
    ∃ q', q.addNum (QNum.make n v (M n)) = .ok q' ∧ IsQN M q' ∧
      ∀ k, q'.val k = if k = n then norm (M n) v else q.val k := by
  have hact : ∀ w ∈ l, w.active = true := fun w hw => by simp [QNum.active, h.mod_ne w hw]
  obtain ⟨j, hj⟩ : ∃ j, 3 = l.length + j := ⟨3 - l.length, by omega⟩
  have hj' : qnSize - l.length = j + 1 := by simp [qnSize]; omega
  have hlast : (q.getD (qnSize - 1) QNum.none).active = false := by
    rw [h.eq, hj']
    have : (l ++ List.replicate (j + 1) QNum.none).getD (qnSize - 1) QNum.none = QNum.none := by
      simp only [List.getD, qnSize]
      rw [List.getElem?_append_right (by omega)]
      rw [List.getElem?_replicate_of_lt (by omega)]; rfl
    rw [this]; rfl
  have hstep : q.addNum (QNum.make n v (M n)) = .ok (ins (QNum.make n v (M n)) l ++
      List.replicate j QNum.none) := by
    unfold QN.addNum
    rw [hlast]
    simp only [Bool.false_eq_true, if_false, qnSize]
    have e := addNumLoop_skip (QNum.make n v (M n)) l j []
    rw [List.append_nil] at e
    rw [h.eq, hj', show 4 - 1 = l.length + j by omega, e, List.replicate_succ]
    exact addNumLoop_ins _ l _ _ h.sorted hact hn
  have hlen : (ins (QNum.make n v (M n)) l).length = l.length + 1 := by
    rw [ins_length h.sorted, if_neg]
    rintro ⟨w, hw, e⟩; exact hn w hw e
  have hmem : ∀ w ∈ ins (QNum.make n v (M n)) l, w = QNum.make n v (M n) ∨ w ∈ l := by
    clear * - hn
    induction l with
    | nil => intro w hw; simp [ins] at hw; exact Or.inl hw
    | cons a l ih =>
      intro w hw
      have : ¬ a.name = (QNum.make n v (M n)).name := hn a (by simp)
      simp only [ins, this, if_false] at hw
      split at hw
      · rcases List.mem_cons.1 hw with e | e
        · exact Or.inl e
        · exact Or.inr e
      · rcases List.mem_cons.1 hw with e | e
        · exact Or.inr (by simp [e])
        · rcases ih (fun v hv => hn v (by simp [hv])) w e with f | f
          · exact Or.inl f
          · exact Or.inr (by simp [f])
  have hwf : WF M (ins (QNum.make n v (M n)) l ++ List.replicate j QNum.none)
      (ins (QNum.make n v (M n)) l) := by
    refine ⟨?_, by rw [hlen]; omega, ins_sorted h.sorted, ?_, ?_, ?_⟩
    · rw [hlen]; congr 2; simp [qnSize]; omega
    · intro w hw; rcases hmem w hw with e | e
      · subst e; rfl
      · exact h.mod w e
    · intro w hw; rcases hmem w hw with e | e
      · subst e; exact hM
      · exact h.mod_ne w e
    · intro w hw; rcases hmem w hw with e | e
      · subst e; simp [QNum.make, setVal_eq_norm]
      · exact h.red w e
  refine ⟨_, hstep, ⟨_, hwf⟩, fun k => ?_⟩
  rw [hwf.val, h.val, ins_lval h.sorted]
  by_cases e : k = n
  · subst e
    have : l.find? (·.name == k) = Option.none := by
      rw [List.find?_eq_none]; intro w hw; simpa using hn w hw
    simp [this, QNum.make, setVal_eq_norm]
  · have : ¬ k = (QNum.make n v (M n)).name := e
    simp [this, e]

/-- Mapping every slot to one of the same name and modulus with a reduced value. -/
theorem isQN_map {M : Name → Int} {q : QN} {l : List QNum} (h : WF M q l) (f : QNum → QNum)
    (g : Int → Int → Int) (hf : ∀ v, f v = ⟨v.name, norm v.mod (g v.mod v.val), v.mod⟩)
    (h0 : ∀ m, norm m (g m 0) = 0) : WF M (q.map f) (l.map f) ∧
      ∀ n, lval (l.map f) n = norm (M n) (g (M n) (lval l n)) := by
  constructor
  · refine ⟨?_, by simpa using h.len, ?_, ?_, ?_, ?_⟩
    · conv => lhs; rw [h.eq]
      rw [List.map_append, List.map_replicate, List.length_map]
      congr 2
      rw [hf]; simp only [QNum.none, h0]
    · unfold NSorted; rw [List.pairwise_map]
      exact List.Pairwise.imp (fun {a b} hab => by rw [hf, hf]; exact hab) h.sorted
    all_goals
      intro v hv
      obtain ⟨w, hw, rfl⟩ := List.mem_map.1 hv
      rw [hf]
    · exact h.mod w hw
    · exact h.mod_ne w hw
    · simp
  · intro n
    have hmod := h.mod
    clear h
    induction l with
    | nil => simp [lval_nil, h0]
    | cons a l ih =>
      rw [List.map_cons, lval_cons, lval_cons]
      have : (f a).name = a.name := by rw [hf]
      rw [this]
      split
      · rename_i e; rw [hf, ← e, ← hmod a (by simp)]
      · exact ih (fun v hv => hmod v (by simp [hv]))

theorem neg_wf {M q l} (h : WF M q l) : WF M q.neg (l.map QNum.neg) ∧
    ∀ n, lval (l.map QNum.neg) n = norm (M n) (- lval l n) :=
  isQN_map h QNum.neg (fun _ v => -v) (fun v => by simp [QNum.neg, QNum.make, setVal_eq_norm])
    (by simp)

theorem scale_wf {M q l} (h : WF M q l) (d : Int) : WF M (q.scale d) (l.map (·.scale d)) ∧
    ∀ n, lval (l.map (·.scale d)) n = norm (M n) (lval l n * d) :=
  isQN_map h (·.scale d) (fun _ v => v * d) (fun v => by simp [QNum.scale, setVal_eq_norm])
    (by simp)

/-! ## C06 -/

/-- **C06.** Addition: every named value of a sum is the sum of the named values, reduced. -/
theorem C06_add_val {M : Name → Int} {a b : QN} (ha : IsQN M a) (hb : IsQN M b)
    (hf : FitsQ a b) : IsQN M (a.add b) ∧ ∀ n, (a.add b).val n = norm (M n) (a.val n + b.val n) := by
  obtain ⟨l, ha⟩ := ha; obtain ⟨m, hb⟩ := hb
  obtain ⟨r, hr, _, hv⟩ := add_spec ha hb (hf.fits ha hb)
  exact ⟨⟨r, hr⟩, fun n => by rw [hr.val, ha.val, hb.val, hv]⟩

theorem FitsQ.symm {a b : QN} (h : FitsQ a b) : FitsQ b a := by
  obtain ⟨u, h0, h1, h2⟩ := h; exact ⟨u, h0, h2, h1⟩

theorem wf_ext {M a b l m} (ha : WF M a l) (hb : WF M b m)
    (hn : ∀ n, (∃ v ∈ l, v.name = n) ↔ (∃ v ∈ m, v.name = n))
    (hv : ∀ n, lval l n = lval m n) : a = b := by
  have : l = m := NSorted.ext ha.sorted hb.sorted hn hv M ha.mod hb.mod
  subst this; rw [ha.eq, hb.eq]

/-- **C06.** Commutativity (as stored values, not only up to `==`). -/
theorem C06_add_comm {M : Name → Int} {a b : QN} (ha : IsQN M a) (hb : IsQN M b)
    (hf : FitsQ a b) : a.add b = b.add a := by
  obtain ⟨l, ha⟩ := ha; obtain ⟨m, hb⟩ := hb
  obtain ⟨r, hr, hn, hv⟩ := add_spec ha hb (hf.fits ha hb)
  obtain ⟨s, hs, kn, kv⟩ := add_spec hb ha (hf.symm.fits hb ha)
  refine wf_ext hr hs (fun n => ?_) (fun n => ?_)
  · rw [hn, kn]; exact Or.comm
  · rw [hv, kv, Int.add_comm]

/-- **C06.** Associativity, when all names together are at most four. -/
theorem C06_add_assoc {M : Name → Int} {a b c : QN} (ha : IsQN M a) (hb : IsQN M b)
    (hc : IsQN M c) (hf : ∃ u : List Name, u.length ≤ 4 ∧
      ∀ q ∈ [a, b, c], ∀ v ∈ q, v.active = true → v.name ∈ u) :
    (a.add b).add c = a.add (b.add c) := by
  obtain ⟨u, hu, hq⟩ := hf
  obtain ⟨l, ha⟩ := ha; obtain ⟨m, hb⟩ := hb; obtain ⟨k, hc⟩ := hc
  have na : ∀ n ∈ names l, n ∈ u := fun n hn => by
    obtain ⟨v, hv, rfl⟩ := List.mem_map.1 hn
    have := ha.mem_active.2 hv; exact hq a (by simp) v this.1 this.2
  have nb : ∀ n ∈ names m, n ∈ u := fun n hn => by
    obtain ⟨v, hv, rfl⟩ := List.mem_map.1 hn
    have := hb.mem_active.2 hv; exact hq b (by simp) v this.1 this.2
  have nc : ∀ n ∈ names k, n ∈ u := fun n hn => by
    obtain ⟨v, hv, rfl⟩ := List.mem_map.1 hn
    have := hc.mem_active.2 hv; exact hq c (by simp) v this.1 this.2
  obtain ⟨r1, hr1, n1, v1⟩ := add_spec ha hb ⟨u, hu, na, nb⟩
  have nr1 : ∀ n ∈ names r1, n ∈ u := fun n hn => by
    obtain ⟨v, hv, rfl⟩ := List.mem_map.1 hn
    rcases (n1 v.name).1 ⟨v, hv, rfl⟩ with ⟨w, hw, e⟩ | ⟨w, hw, e⟩
    · rw [← e]; exact na _ (List.mem_map.2 ⟨w, hw, rfl⟩)
    · rw [← e]; exact nb _ (List.mem_map.2 ⟨w, hw, rfl⟩)
  obtain ⟨r2, hr2, n2, v2⟩ := add_spec hr1 hc ⟨u, hu, nr1, nc⟩
  obtain ⟨s1, hs1, p1, w1⟩ := add_spec hb hc ⟨u, hu, nb, nc⟩
  have ns1 : ∀ n ∈ names s1, n ∈ u := fun n hn => by
    obtain ⟨v, hv, rfl⟩ := List.mem_map.1 hn
    rcases (p1 v.name).1 ⟨v, hv, rfl⟩ with ⟨w, hw, e⟩ | ⟨w, hw, e⟩
    · rw [← e]; exact nb _ (List.mem_map.2 ⟨w, hw, rfl⟩)
    · rw [← e]; exact nc _ (List.mem_map.2 ⟨w, hw, rfl⟩)
  obtain ⟨s2, hs2, p2, w2⟩ := add_spec ha hs1 ⟨u, hu, na, ns1⟩
  refine wf_ext hr2 hs2 (fun n => ?_) (fun n => ?_)
  · rw [n2, n1, p2, p1, or_assoc]
  · rw [v2, v1, w2, w1, norm_add_norm_left, norm_add_norm_right, Int.add_assoc]

/-- **C06.** The default QN is the identity on both sides. -/
theorem C06_add_zero {M : Name → Int} {a : QN} (ha : IsQN M a) :
    a.add QN.default = a ∧ QN.default.add a = a := by
  have h1 : a.add QN.default = a := rfl
  obtain ⟨l, hw⟩ := ha
  refine ⟨h1, ?_⟩
  have hf : FitsQ QN.default a := by
    refine ⟨names l, ?_, ?_, ?_⟩
    · have := hw.len; simpa [names] using this
    · intro v hv hv2; have := (List.mem_replicate.1 hv).2; subst this; cases hv2
    · intro v hv hv2; exact List.mem_map.2 ⟨v, hw.mem_active.1 ⟨hv, hv2⟩, rfl⟩
  rw [C06_add_comm (isQN_default M) ⟨l, hw⟩ hf, h1]

/-- `==` compares denotations. -/
theorem covers_iff {M a b l m} (ha : WF M a l) (hb : WF M b m) :
    a.covers b = true ↔ ∀ n, b.val n ≠ 0 → a.val n = b.val n := by
  have hfind : ∀ {q k}, WF M q k → ∀ n v, q.find? (·.name == n) = some v → q.val n = v.val := by
    intro q k _ n v h; unfold QN.val; rw [h]
  have hnone : ∀ {q k}, WF M q k → ∀ n, q.find? (·.name == n) = Option.none → q.val n = 0 := by
    intro q k _ n h; unfold QN.val; rw [h]
  have hval : ∀ bv ∈ b, bv.val ≠ 0 → b.val bv.name = bv.val := by
    intro bv hbv hne
    rw [hb.eq] at hbv
    have hbm : bv ∈ m := by
      rcases List.mem_append.1 hbv with e | e
      · exact e
      · have := (List.mem_replicate.1 e).2; subst this; exact absurd rfl hne
    rw [hb.val]
    have hs := hb.sorted
    clear * - hbm hs
    induction m with
    | nil => simp at hbm
    | cons a m ih =>
      have hs' := List.pairwise_cons.1 hs
      rw [lval_cons]
      rcases List.mem_cons.1 hbm with e | e
      · simp [e]
      · rw [if_neg, ih e hs'.2]
        intro f; have := hs'.1 bv e; rw [f] at this; omega
  unfold QN.covers
  rw [List.all_eq_true]
  constructor
  · intro h n hn
    have : ∃ v, b.find? (·.name == n) = some v := by
      cases hq : b.find? (·.name == n) with
      | none => exact absurd (hnone hb n hq) hn
      | some v => exact ⟨v, rfl⟩
    obtain ⟨v, hv⟩ := this
    have hvn : v.name = n := by simpa using List.find?_some hv
    have hvm := List.mem_of_find?_eq_some hv
    have hbv := hfind hb n v hv
    have := h v hvm
    rw [Bool.or_eq_true] at this
    rcases this with e | e
    · simp at e; rw [hbv] at hn; exact absurd e hn
    · rw [hvn] at e
      cases hq : a.find? (·.name == n) with
      | none => rw [hq] at e; cases e
      | some w =>
        rw [hq] at e; simp at e
        rw [hfind ha n w hq, hbv, e]
  · intro h bv hbv
    by_cases h0 : bv.val = 0
    · simp [h0]
    · have e1 := hval bv hbv h0
      have e2 := h bv.name (by rw [e1]; exact h0)
      rw [Bool.or_eq_true]; right
      cases hq : a.find? (·.name == bv.name) with
      | none => rw [hnone ha _ hq, e1] at e2; exact absurd e2.symm h0
      | some w => rw [hfind ha _ w hq, e1] at e2; simp [e2]

/-! ## C07 -/

/-- **C07.** `==` holds exactly when both QNs give the same value to every name, with missing
names counting as 0.  (So it is an equivalence relation.)  The two may use different moduli. -/
theorem C07_eq_iff {M : Name → Int} {a b : QN} (ha : IsQN M a) (hb : IsQN M b) :
    a.eq b = true ↔ ∀ n, a.val n = b.val n := by
  obtain ⟨l, ha⟩ := ha; obtain ⟨m, hb⟩ := hb
  unfold QN.eq
  rw [Bool.and_eq_true, covers_iff ha hb, covers_iff hb ha]
  constructor
  · rintro ⟨h1, h2⟩ n
    by_cases e : b.val n = 0
    · by_cases f : a.val n = 0
      · rw [e, f]
      · exact (h2 n f).symm
    · exact h1 n e
  · intro h; exact ⟨fun n _ => h n, fun n _ => (h n).symm⟩

/-- **C06.** Inverse: `a + (-a)` equals the default QN. -/
theorem C06_add_neg {M : Name → Int} {a : QN} (ha : IsQN M a) :
    IsQN M (a.add a.neg) ∧ (a.add a.neg).eq QN.default = true ∧
      (a.sub a).eq QN.default = true := by
  obtain ⟨l, hw⟩ := ha
  obtain ⟨hnw, hnv⟩ := neg_wf hw
  have hf : FitsQ a a.neg := ⟨names l, by have := hw.len; simpa [names] using this, by
      intro v hv hv2; exact List.mem_map.2 ⟨v, hw.mem_active.1 ⟨hv, hv2⟩, rfl⟩, by
      intro v hv hv2
      obtain ⟨w, hw1, hw2⟩ := List.mem_map.1 (hnw.mem_active.1 ⟨hv, hv2⟩)
      rw [← hw2]; exact List.mem_map.2 ⟨w, hw1, rfl⟩⟩
  obtain ⟨h1, h2⟩ := C06_add_val ⟨l, hw⟩ ⟨_, hnw⟩ hf
  have : (a.add a.neg).eq QN.default = true := by
    rw [C07_eq_iff h1 (isQN_default M)]
    intro n
    rw [h2, hw.val, hnw.val, hnv, norm_add_norm_right, Int.add_right_neg, norm_zero,
      (WF.default M).val, lval_nil]
  exact ⟨h1, this, this⟩

/-- **C06.** Subtraction is addition of the negation: values subtract. -/
theorem C06_sub_val {M : Name → Int} {a b : QN} (ha : IsQN M a) (hb : IsQN M b)
    (hf : FitsQ a b) : IsQN M (a.sub b) ∧ ∀ n, (a.sub b).val n = norm (M n) (a.val n - b.val n) := by
  obtain ⟨l, ha⟩ := ha; obtain ⟨m, hb⟩ := hb
  obtain ⟨hnw, hnv⟩ := neg_wf hb
  have hf' : FitsQ a b.neg := by
    obtain ⟨u, h0, h1, h2⟩ := hf
    refine ⟨u, h0, h1, ?_⟩
    intro v hv hv2
    obtain ⟨w, hw1, hw2⟩ := List.mem_map.1 (hnw.mem_active.1 ⟨hv, hv2⟩)
    have := hb.mem_active.2 hw1
    rw [← hw2]; exact h2 w this.1 this.2
  obtain ⟨h1, h2⟩ := C06_add_val ⟨l, ha⟩ ⟨_, hnw⟩ hf'
  refine ⟨h1, fun n => ?_⟩
  show (a.add b.neg).val n = _
  rw [h2, hnw.val, hnv, hb.val, norm_add_norm_right, Int.sub_eq_add_neg]

/-- **C06.** Arrow multiplication: `Out` leaves every value, `In` negates. -/
theorem C06_scale_val {M : Name → Int} {a : QN} (ha : IsQN M a) (d : Int) :
    IsQN M (a.scale d) ∧ ∀ n, (a.scale d).val n = norm (M n) (a.val n * d) := by
  obtain ⟨l, ha⟩ := ha
  obtain ⟨h1, h2⟩ := scale_wf ha d
  exact ⟨⟨_, h1⟩, fun n => by rw [h1.val, h2, ha.val]⟩

/-- Lexicographic comparison of denotations in the order of the 64-bit name keys. -/
def LexLT (f g : Name → Int) : Prop :=
  ∃ n, f n < g n ∧ ∀ k, Tag.key k < Tag.key n → f k = g k

theorem lval_lower {x : QNum} {l : List QNum} (h : ∀ v ∈ l, x.name.key < v.name.key) {k : Name}
    (hk : Tag.key k ≤ x.name.key) : lval l k = 0 :=
  lval_of_notMem (fun v hv e => by have := h v hv; rw [e] at this; omega)

theorem lex_skip_left {x : QNum} {l : List QNum} (hl : ∀ v ∈ l, x.name.key < v.name.key)
    (h0 : x.val = 0) : lval (x :: l) = lval l := by
  funext k
  rw [lval_cons]
  split
  · rename_i e; subst e; rw [h0, lval_lower hl (Nat.le_refl _)]
  · rfl

theorem lex_left {x : QNum} {l m : List QNum} 
    (hl : ∀ v ∈ l, x.name.key < v.name.key) (hm : ∀ v ∈ m, x.name.key < v.name.key)
    (h0 : x.val ≠ 0) : LexLT (lval (x :: l)) (lval m) ↔ x.val < 0 := by
  have hx : lval (x :: l) x.name = x.val := by rw [lval_cons, if_pos rfl]
  have hmx : lval m x.name = 0 := lval_lower hm (Nat.le_refl _)
  constructor
  · rintro ⟨n, h1, h2⟩
    by_cases e : Tag.key x.name < Tag.key n
    · have := h2 _ e; rw [hx, hmx] at this; exact absurd this h0
    · by_cases f : n = x.name
      · subst f; rw [hx, hmx] at h1; exact h1
      · have : Tag.key n ≠ Tag.key x.name := fun e => f (Tag.key_inj e)
        rw [lval_cons, if_neg (fun e => f e.symm), lval_lower hl (by omega), lval_lower hm (by omega)]
          at h1
        omega
  · intro h
    refine ⟨x.name, by rw [hx, hmx]; exact h, fun k hk => ?_⟩
    rw [lval_cons, if_neg (fun e => by subst e; omega), lval_lower hl (by omega),
      lval_lower hm (by omega)]

theorem lex_right {y : QNum} {l m : List QNum}
    (hl : ∀ v ∈ l, y.name.key < v.name.key) (hm : ∀ v ∈ m, y.name.key < v.name.key)
    (h0 : y.val ≠ 0) : LexLT (lval l) (lval (y :: m)) ↔ 0 < y.val := by
  have hx : lval (y :: m) y.name = y.val := by rw [lval_cons, if_pos rfl]
  have hmx : lval l y.name = 0 := lval_lower hl (Nat.le_refl _)
  constructor
  · rintro ⟨n, h1, h2⟩
    by_cases e : Tag.key y.name < Tag.key n
    · have := h2 _ e; rw [hx, hmx] at this; exact absurd this.symm h0
    · by_cases f : n = y.name
      · subst f; rw [hx, hmx] at h1; exact h1
      · have : Tag.key n ≠ Tag.key y.name := fun e => f (Tag.key_inj e)
        rw [lval_cons, if_neg (fun e => f e.symm), lval_lower hl (by omega), lval_lower hm (by omega)]
          at h1
        omega
  · intro h
    refine ⟨y.name, by rw [hx, hmx]; exact h, fun k hk => ?_⟩
    rw [lval_cons, if_neg (fun e => by subst e; omega), lval_lower hl (by omega),
      lval_lower hm (by omega)]

theorem lex_both {x y : QNum} {l m : List QNum} (hxy : x.name = y.name)
    (hl : ∀ v ∈ l, x.name.key < v.name.key) (hm : ∀ v ∈ m, y.name.key < v.name.key) :
    LexLT (lval (x :: l)) (lval (y :: m)) ↔
      if x.val = y.val then LexLT (lval l) (lval m) else x.val < y.val := by
  have hx : lval (x :: l) x.name = x.val := by rw [lval_cons, if_pos rfl]
  have hy : lval (y :: m) x.name = y.val := by rw [lval_cons, if_pos hxy.symm]
  have hne : ∀ k, k ≠ x.name → lval (x :: l) k = lval l k ∧ lval (y :: m) k = lval m k := by
    intro k hk
    exact ⟨by rw [lval_cons, if_neg (fun e => hk e.symm)],
      by rw [lval_cons, if_neg (fun e => hk (by rw [hxy, e]))]⟩
  split
  · rename_i hv
    constructor
    · rintro ⟨n, h1, h2⟩
      have hn : n ≠ x.name := by rintro rfl; rw [hx, hy] at h1; omega
      refine ⟨n, by rw [(hne n hn).1, (hne n hn).2] at h1; exact h1, fun k hk => ?_⟩
      by_cases e : k = x.name
      · subst e; rw [lval_lower hl (Nat.le_refl _), lval_lower hm (by rw [hxy]; exact Nat.le_refl _)]
      · have := h2 k hk; rw [(hne k e).1, (hne k e).2] at this; exact this
    · rintro ⟨n, h1, h2⟩
      have hn : n ≠ x.name := by
        rintro rfl
        rw [lval_lower hl (Nat.le_refl _), lval_lower hm (by rw [hxy]; exact Nat.le_refl _)] at h1
        omega
      refine ⟨n, by rw [(hne n hn).1, (hne n hn).2]; exact h1, fun k hk => ?_⟩
      by_cases e : k = x.name
      · subst e; rw [hx, hy, hv]
      · rw [(hne k e).1, (hne k e).2]; exact h2 k hk
  · rename_i hv
    constructor
    · rintro ⟨n, h1, h2⟩
      by_cases e : Tag.key x.name < Tag.key n
      · have := h2 _ e; rw [hx, hy] at this; exact absurd this hv
      · by_cases f : n = x.name
        · subst f; rw [hx, hy] at h1; exact h1
        · have : Tag.key n ≠ Tag.key x.name := fun e => f (Tag.key_inj e)
          rw [(hne n f).1, (hne n f).2, lval_lower hl (by omega),
            lval_lower hm (by rw [← hxy]; omega)] at h1
          omega
    · intro h
      refine ⟨x.name, by rw [hx, hy]; exact h, fun k hk => ?_⟩
      have : k ≠ x.name := by rintro rfl; omega
      rw [(hne k this).1, (hne k this).2, lval_lower hl (by omega),
        lval_lower hm (by rw [← hxy]; omega)]

theorem lex_nil : ¬ LexLT (lval []) (lval []) := by
  rintro ⟨n, h, _⟩; simp [lval_nil] at h

/-- The merge walk compares lexicographically, if an array that is completely full of active
slots contains all names of the other. -/
theorem ltLoop_iff (N : Nat) : ∀ (l m : List QNum) (i j : Nat), l.length + m.length ≤ N →
    NSorted l → NSorted m → (∀ v ∈ l, v.active = true) → (∀ v ∈ m, v.active = true) →
    (i = 0 → ∀ v ∈ m, ∃ w ∈ l, w.name = v.name) → (j = 0 → ∀ v ∈ l, ∃ w ∈ m, w.name = v.name) →
    (ltLoop (l ++ List.replicate i QNum.none) (m ++ List.replicate j QNum.none) = true ↔
      LexLT (lval l) (lval m)) := by
  have hna : QNum.none.active = false := rfl
  induction N with
  | zero =>
    intro l m i j hN _ _ _ _ _ _
    have hl : l = [] := List.length_eq_zero_iff.1 (by omega)
    have hm : m = [] := List.length_eq_zero_iff.1 (by omega)
    subst hl hm
    simp only [List.nil_append, lex_nil, iff_false]
    cases i with
    | zero => simp [ltLoop]
    | succ i =>
      cases j with
      | zero => simp [ltLoop, List.replicate_succ]
      | succ j => simp [ltLoop, List.replicate_succ, hna]
  | succ N ih =>
    intro l m i j hN hsl hsm hal ham hi hj
    cases l with
    | nil =>
      cases m with
      | nil => exact ih [] [] i j (by simp) hsl hsm hal ham hi hj
      | cons y m =>
        have hsm' := List.pairwise_cons.1 hsm
        cases i with
        | zero => obtain ⟨w, hw, _⟩ := hi rfl y (by simp); simp at hw
        | succ i =>
          have hya := ham y (by simp)
          simp only [List.nil_append, List.replicate_succ, List.cons_append, ltLoop, hna, hya,
            Bool.false_or, Bool.not_true, Bool.false_eq_true, if_false, Bool.not_false, if_true]
          by_cases h0 : y.val = 0
          · rw [if_pos h0]
            have := ih [] m (i + 1) j (by simp at hN ⊢; omega) hsl hsm'.2 hal
              (fun v hv => ham v (by simp [hv])) (by simp) (by simp)
            simp only [List.nil_append, List.replicate_succ] at this
            rw [this, lex_skip_left hsm'.1 h0]
          · rw [if_neg h0, lex_right (by simp) hsm'.1 h0]; simp
    | cons x l =>
      have hsl' := List.pairwise_cons.1 hsl
      have hxa := hal x (by simp)
      cases m with
      | nil =>
        cases j with
        | zero => obtain ⟨w, hw, _⟩ := hj rfl x (by simp); simp at hw
        | succ j =>
          simp only [List.nil_append, List.replicate_succ, List.cons_append, ltLoop, hna, hxa,
            Bool.true_or, Bool.not_true, Bool.false_eq_true, if_false, Bool.not_false, if_true]
          by_cases h0 : x.val = 0
          · rw [if_pos h0]
            have := ih l [] i (j + 1) (by simp at hN ⊢; omega) hsl'.2 hsm
              (fun v hv => hal v (by simp [hv])) ham (by simp) (by simp)
            simp only [List.nil_append, List.replicate_succ] at this
            rw [this, lex_skip_left hsl'.1 h0]
          · rw [if_neg h0, lex_left hsl'.1 (by simp) h0]; simp
      | cons y m =>
        have hsm' := List.pairwise_cons.1 hsm
        have hya := ham y (by simp)
        simp only [List.length_cons] at hN
        simp only [List.cons_append, ltLoop, hxa, hya, Bool.or_self, Bool.not_true,
          Bool.false_eq_true, if_false]
        by_cases h1 : x.name.lt y.name = true
        · simp only [h1, if_true]
          have h1' : x.name.key < y.name.key := by simpa [Tag.lt] using h1
          have hxm : ∀ v ∈ y :: m, x.name.key < v.name.key := by
            intro v hv; rcases List.mem_cons.1 hv with e | e
            · subst e; exact h1'
            · have := hsm'.1 v e; omega
          have hj0 : j ≠ 0 := by
            rintro rfl
            obtain ⟨w, hw, e⟩ := hj rfl x (by simp)
            have := hxm w hw; rw [e] at this; omega
          by_cases h0 : x.val = 0
          · rw [if_pos h0]
            have := ih l (y :: m) i j (by simp; omega) hsl'.2 hsm
              (fun v hv => hal v (by simp [hv])) ham (by
                intro h v hv
                obtain ⟨w, hw, e⟩ := hi h v hv
                rcases List.mem_cons.1 hw with f | f
                · subst f; have := hxm v hv; rw [e] at this; omega
                · exact ⟨w, f, e⟩) (fun h => absurd h hj0)
            rw [List.cons_append] at this
            rw [this, lex_skip_left hsl'.1 h0]
          · rw [if_neg h0, lex_left hsl'.1 hxm h0]; simp
        · simp only [h1, Bool.false_eq_true, if_false]
          by_cases h2 : y.name.lt x.name = true
          · simp only [h2, if_true]
            have h2' : y.name.key < x.name.key := by simpa [Tag.lt] using h2
            have hyl : ∀ v ∈ x :: l, y.name.key < v.name.key := by
              intro v hv; rcases List.mem_cons.1 hv with e | e
              · subst e; exact h2'
              · have := hsl'.1 v e; omega
            have hi0 : i ≠ 0 := by
              rintro rfl
              obtain ⟨w, hw, e⟩ := hi rfl y (by simp)
              have := hyl w hw; rw [e] at this; omega
            by_cases h0 : y.val = 0
            · rw [if_pos h0]
              have := ih (x :: l) m i j (by simp; omega) hsl hsm'.2 hal
                (fun v hv => ham v (by simp [hv])) (fun h => absurd h hi0) (by
                  intro h v hv
                  obtain ⟨w, hw, e⟩ := hj h v hv
                  rcases List.mem_cons.1 hw with f | f
                  · subst f; have := hyl v hv; rw [e] at this; omega
                  · exact ⟨w, f, e⟩)
              rw [List.cons_append] at this
              rw [this, lex_skip_left hsm'.1 h0]
            · rw [if_neg h0, lex_right hyl hsm'.1 h0]; simp
          · simp only [h2, Bool.false_eq_true, if_false]
            have hxy : x.name = y.name := by
              apply Tag.key_inj
              simp only [Tag.lt, decide_eq_true_eq] at h1 h2; omega
            rw [lex_both hxy hsl'.1 hsm'.1]
            by_cases h0 : x.val = y.val
            · simp only [h0, if_true]
              refine ih l m i j (by omega) hsl'.2 hsm'.2 (fun v hv => hal v (by simp [hv]))
                (fun v hv => ham v (by simp [hv])) ?_ ?_
              · intro h v hv
                obtain ⟨w, hw, e⟩ := hi h v (by simp [hv])
                rcases List.mem_cons.1 hw with f | f
                · subst f; have := hsm'.1 v hv; rw [← e, hxy] at this; omega
                · exact ⟨w, f, e⟩
              · intro h v hv
                obtain ⟨w, hw, e⟩ := hj h v (by simp [hv])
                rcases List.mem_cons.1 hw with f | f
                · subst f; have := hsl'.1 v hv; rw [← e, hxy] at this; omega
                · exact ⟨w, f, e⟩
            · simp [h0]

theorem full_contains {l m : List QNum} (hl : NSorted l) (hf : Fits l m)
    (hfull : qnSize - l.length = 0) : ∀ v ∈ m, ∃ w ∈ l, w.name = v.name := by
  obtain ⟨u, hu, h1, h2⟩ := hf
  intro v hv
  by_cases h : v.name ∈ names l
  · obtain ⟨w, hw, e⟩ := List.mem_map.1 h; exact ⟨w, hw, e⟩
  · have : (v.name :: names l).length ≤ u.length := nodup_subset_length
      (List.nodup_cons.2 ⟨h, hl.names_nodup⟩) (by
        intro n hn; rcases List.mem_cons.1 hn with e | e
        · rw [e]; exact h2 _ (List.mem_map.2 ⟨v, hv, rfl⟩)
        · exact h1 n e)
    simp [names, qnSize] at this hu hfull
    omega

/-- **C07.** `<` is the lexicographic comparison of the named values in key order, provided the
names used by both fit in four slots. -/
theorem C07_lt_iff {M : Name → Int} {a b : QN} (ha : IsQN M a) (hb : IsQN M b) (hf : FitsQ a b) :
    a.lt b = true ↔ LexLT a.val b.val := by
  obtain ⟨l, ha⟩ := ha; obtain ⟨m, hb⟩ := hb
  have hf' := hf.fits ha hb
  have hal : ∀ v ∈ l, v.active = true := fun v hv => by simp [QNum.active, ha.mod_ne v hv]
  have ham : ∀ v ∈ m, v.active = true := fun v hv => by simp [QNum.active, hb.mod_ne v hv]
  have := ltLoop_iff _ l m (qnSize - l.length) (qnSize - m.length) (Nat.le_refl _) ha.sorted
    hb.sorted hal ham (full_contains ha.sorted hf') (full_contains hb.sorted (by
      obtain ⟨u, h0, h1, h2⟩ := hf'; exact ⟨u, h0, h2, h1⟩))
  rw [← ha.eq, ← hb.eq] at this
  have e1 : a.val = lval l := funext ha.val
  have e2 : b.val = lval m := funext hb.val
  rw [e1, e2]; exact this

theorem LexLT.trans {f g h : Name → Int} (h1 : LexLT f g) (h2 : LexLT g h) : LexLT f h := by
  obtain ⟨n, a1, a2⟩ := h1; obtain ⟨k, b1, b2⟩ := h2
  rcases Nat.lt_trichotomy (Tag.key n) (Tag.key k) with e | e | e
  · exact ⟨n, by rw [← b2 n e]; exact a1, fun j hj => by rw [a2 j hj, b2 j (by omega)]⟩
  · have := Tag.key_inj e; subst this
    exact ⟨n, by omega, fun j hj => by rw [a2 j hj, b2 j hj]⟩
  · exact ⟨k, by rw [a2 k e]; exact b1, fun j hj => by rw [a2 j (by omega), b2 j hj]⟩

theorem LexLT.irrefl {f : Name → Int} : ¬ LexLT f f := by rintro ⟨n, h, _⟩; omega

/-- **C07.** Strict order: irreflexive and transitive. -/
theorem C07_lt_strict {M : Name → Int} {a b c : QN} (ha : IsQN M a) (hb : IsQN M b)
    (hc : IsQN M c) (hab : FitsQ a b) (hbc : FitsQ b c) (hac : FitsQ a c) :
    a.lt a = false ∧ (a.lt b = true → b.lt c = true → a.lt c = true) := by
  have haa : FitsQ a a := by obtain ⟨u, h0, h1, _⟩ := hab; exact ⟨u, h0, h1, h1⟩
  constructor
  · rw [Bool.eq_false_iff]; intro h
    exact LexLT.irrefl ((C07_lt_iff ha ha haa).1 h)
  · intro h1 h2
    exact (C07_lt_iff ha hc hac).2 (((C07_lt_iff ha hb hab).1 h1).trans ((C07_lt_iff hb hc hbc).1 h2))

/-- **C07.** Trichotomy: exactly one of `a<b`, `a==b`, `b<a`. -/
theorem C07_trichotomy {M : Name → Int} {a b : QN} (ha : IsQN M a) (hb : IsQN M b)
    (hf : FitsQ a b) :
    (a.lt b = true ∧ a.eq b = false ∧ b.lt a = false) ∨
    (a.lt b = false ∧ a.eq b = true ∧ b.lt a = false) ∨
    (a.lt b = false ∧ a.eq b = false ∧ b.lt a = true) := by
  have e1 := C07_lt_iff ha hb hf
  have e2 := C07_lt_iff hb ha hf.symm
  have e3 := C07_eq_iff ha hb
  have asym : ∀ {f g : Name → Int}, LexLT f g → ¬ LexLT g f := fun h1 h2 => LexLT.irrefl (h1.trans h2)
  have ne : ∀ {f g : Name → Int}, LexLT f g → ¬ ∀ n, f n = g n := by
    rintro f g ⟨n, h, _⟩ h'; have := h' n; omega
  by_cases h : ∀ n, a.val n = b.val n
  · right; left
    refine ⟨?_, e3.2 h, ?_⟩
    · rw [Bool.eq_false_iff]; intro k; exact ne (e1.1 k) h
    · rw [Bool.eq_false_iff]; intro k; exact ne (e2.1 k) (fun n => (h n).symm)
  · -- the first differing name
    have : ∃ n, a.val n ≠ b.val n := Classical.byContradiction fun hn => h (fun n =>
      Classical.byContradiction fun hh => hn ⟨n, hh⟩)
    have hex : ∃ k, ∃ n, Tag.key n = k ∧ a.val n ≠ b.val n := by
      obtain ⟨n, hn⟩ := this; exact ⟨_, n, rfl, hn⟩
    have hmin : ∃ n, a.val n ≠ b.val n ∧ ∀ k, Tag.key k < Tag.key n → a.val k = b.val k := by
      obtain ⟨K, hK⟩ := hex
      induction K using Nat.strongRecOn with
      | _ K ih =>
        obtain ⟨n, hn, hne⟩ := hK
        by_cases hs : ∃ k, Tag.key k < Tag.key n ∧ a.val k ≠ b.val k
        · obtain ⟨k, hk, hk'⟩ := hs
          exact ih (Tag.key k) (by omega) ⟨k, rfl, hk'⟩
        · refine ⟨n, hne, fun k hk => Classical.byContradiction fun hh => hs ⟨k, hk, hh⟩⟩
    obtain ⟨n, hne, hlow⟩ := hmin
    have heq : a.eq b = false := by rw [Bool.eq_false_iff]; intro k; exact h (e3.1 k)
    by_cases hlt : a.val n < b.val n
    · left
      have : LexLT a.val b.val := ⟨n, hlt, hlow⟩
      exact ⟨e1.2 this, heq, by rw [Bool.eq_false_iff]; intro k; exact asym this (e2.1 k)⟩
    · right; right
      have : LexLT b.val a.val := ⟨n, by omega, fun k hk => (hlow k hk).symm⟩
      exact ⟨by rw [Bool.eq_false_iff]; intro k; exact asym this (e1.1 k), heq, e2.2 this⟩

/-- Single-letter name. -/
def nm (c : UInt8) : Name := Tag.ofBytes [c]

/-- **C07 fails beyond capacity.** `a` has names A..D all zero, `b` has the single name E with
value 1.  They differ, yet neither `a<b` nor `b<a`: the walk stops when it runs off the end of
the full array. -/
theorem C07_trichotomy_counterexample :
    ∃ a b : QN, IsQN (fun _ => 1) a ∧ IsQN (fun _ => 1) b ∧
      a.lt b = false ∧ a.eq b = false ∧ b.lt a = false := by
  refine ⟨[⟨nm 65, 0, 1⟩, ⟨nm 66, 0, 1⟩, ⟨nm 67, 0, 1⟩, ⟨nm 68, 0, 1⟩],
    [⟨nm 69, 1, 1⟩, QNum.none, QNum.none, QNum.none],
    ⟨[⟨nm 65, 0, 1⟩, ⟨nm 66, 0, 1⟩, ⟨nm 67, 0, 1⟩, ⟨nm 68, 0, 1⟩], ?_⟩, ⟨[⟨nm 69, 1, 1⟩], ?_⟩, ?_⟩
  · exact ⟨by decide, by decide, by unfold NSorted; decide, by decide, by decide, by decide⟩
  · exact ⟨by decide, by decide, by unfold NSorted; decide, by decide, by decide, by decide⟩
  · refine ⟨?_, by decide, ?_⟩ <;> simp [QN.lt, ltLoop, QNum.active, QNum.none, nm, Tag.lt, Tag.key, Tag.ofBytes]

/-! ## C08 -/

/-- **C08 (partial).** If the names of both fit into the four slots, no quantum number is lost:
every name of either argument is present in the sum with the right value.  The full statement (no
capacity hypothesis, or an error) is false: `C08_add_drops_counterexample`. -/
theorem C08_no_loss_partial {M : Name → Int} {a b : QN} (ha : IsQN M a) (hb : IsQN M b)
    (hf : FitsQ a b) :
    (∀ n, (∃ v ∈ a.add b, v.active = true ∧ v.name = n) ↔
      (∃ v ∈ a, v.active = true ∧ v.name = n) ∨ (∃ v ∈ b, v.active = true ∧ v.name = n)) ∧
    ∀ n, (a.add b).val n = norm (M n) (a.val n + b.val n) := by
  refine ⟨?_, (C06_add_val ha hb hf).2⟩
  obtain ⟨l, ha⟩ := ha; obtain ⟨m, hb⟩ := hb
  obtain ⟨r, hr, hn, _⟩ := add_spec ha hb (hf.fits ha hb)
  have key : ∀ {q k}, WF M q k → ∀ n, (∃ v ∈ q, v.active = true ∧ v.name = n) ↔
      ∃ v ∈ k, v.name = n := by
    intro q k h n
    constructor
    · rintro ⟨v, h1, h2, h3⟩; exact ⟨v, h.mem_active.1 ⟨h1, h2⟩, h3⟩
    · rintro ⟨v, h1, h3⟩; have := h.mem_active.2 h1; exact ⟨v, this.1, this.2, h3⟩
  intro n
  rw [key hr, key ha, key hb, hn]

/-- **C08 is false of the code.** Adding a fifth name: `{B,C,D,E} + {A:1}` drops `E` silently, and
`{A,B,C,D} + {E:1}` drops the new value silently. -/
theorem C08_add_drops_counterexample :
    ∃ a b c d : QN, IsQN (fun _ => 1) a ∧ IsQN (fun _ => 1) b ∧ IsQN (fun _ => 1) c ∧
      IsQN (fun _ => 1) d ∧
      a.val (nm 69) = 1 ∧ (a.add b).val (nm 69) = 0 ∧
      d.val (nm 69) = 1 ∧ c.add d = c := by
  refine ⟨[⟨nm 66, 1, 1⟩, ⟨nm 67, 1, 1⟩, ⟨nm 68, 1, 1⟩, ⟨nm 69, 1, 1⟩],
    [⟨nm 65, 1, 1⟩, QNum.none, QNum.none, QNum.none],
    [⟨nm 65, 1, 1⟩, ⟨nm 66, 1, 1⟩, ⟨nm 67, 1, 1⟩, ⟨nm 68, 1, 1⟩],
    [⟨nm 69, 1, 1⟩, QNum.none, QNum.none, QNum.none],
    ⟨[⟨nm 66, 1, 1⟩, ⟨nm 67, 1, 1⟩, ⟨nm 68, 1, 1⟩, ⟨nm 69, 1, 1⟩], ?_⟩, ⟨[⟨nm 65, 1, 1⟩], ?_⟩,
    ⟨[⟨nm 65, 1, 1⟩, ⟨nm 66, 1, 1⟩, ⟨nm 67, 1, 1⟩, ⟨nm 68, 1, 1⟩], ?_⟩, ⟨[⟨nm 69, 1, 1⟩], ?_⟩,
    by decide, by decide, by decide, by decide⟩
  all_goals exact ⟨by decide, by decide, by unfold NSorted; decide, by decide, by decide, by decide⟩

/-! ## C09 -/

/-- **C09.** Binary write then read restores the QN exactly. -/
theorem C09_binary_roundtrip {M : Name → Int} {a : QN} (ha : IsQN M a) :
    QN.read a.write = a := by
  obtain ⟨l, h⟩ := ha
  unfold QN.read QN.write
  rw [List.map_map]
  have : ∀ v ∈ a, ((fun t : Name × Int × Int => QNum.make t.1 t.2.1 t.2.2) ∘
      fun v : QNum => (v.name, v.val, v.mod)) v = v := by
    intro v hv
    rw [h.eq] at hv
    simp only [Function.comp, QNum.make, setVal_eq_norm]
    rcases List.mem_append.1 hv with e | e
    · rw [h.red v e]
    · have := (List.mem_replicate.1 e).2; subst this; rfl
  conv => rhs; rw [← List.map_id a]
  exact List.map_congr_left this

/-- **C09 is false of the code for HDF5.** `QN({"Sz",1})` reads back as slots
`[inactive, Sz, Sz, Sz]`: it still compares equal, but converts to `false`, and adding it to another
QN adds nothing.  `QN(3)` (unnamed) cannot be read back at all. -/
theorem C09_h5_counterexample :
    ∃ a b : QN, IsQN (fun _ => 1) a ∧ QN.h5read a.write = .ok b ∧ a ≠ b ∧ a.eq b = true ∧
      QN.default.add a = a ∧ QN.default.add b = QN.default ∧
      ∃ c : QN, IsQN (fun _ => 1) c ∧ QN.h5read c.write = .throw := by
  refine ⟨[⟨Tag.ofBytes [83, 122], 1, 1⟩, QNum.none, QNum.none, QNum.none],
    [QNum.none, ⟨Tag.ofBytes [83, 122], 1, 1⟩, ⟨Tag.ofBytes [83, 122], 1, 1⟩,
      ⟨Tag.ofBytes [83, 122], 1, 1⟩], ⟨[⟨Tag.ofBytes [83, 122], 1, 1⟩], ?_⟩, by decide, by decide,
    by decide, by decide, by decide,
    [⟨Tag.empty, 3, 1⟩, QNum.none, QNum.none, QNum.none], ⟨[⟨Tag.empty, 3, 1⟩], ?_⟩, by decide⟩
  all_goals exact ⟨by decide, by decide, by unfold NSorted; decide, by decide, by decide, by decide⟩

/-- The part that holds: a QN using all four slots survives HDF5. -/
theorem C09_h5_full_partial {M : Name → Int} {a : QN} {l : List QNum} (h : WF M a l)
    (hl : l.length = 4) : QN.h5read a.write = .ok a := by
  have hread := C09_binary_roundtrip ⟨l, h⟩
  unfold QN.h5read
  unfold QN.read at hread
  rw [hread]
  have ha : a = l := by rw [h.eq, hl]; simp
  rw [ha]
  -- adding sorted names one after another appends
  have key : ∀ (post pre : List QNum), pre ++ post = l →
      Res.foldM QN.addNum (pre ++ List.replicate (4 - pre.length) QNum.none) post = .ok l := by
    intro post
    induction post with
    | nil => intro pre e; simp at e; subst e; rw [hl]; simp
    | cons b post ih =>
      intro pre e
      have hlen : pre.length + (post.length + 1) = 4 := by
        have := congrArg List.length e; simpa [hl] using this
      have hsl : NSorted (pre ++ b :: post) := by rw [e]; exact h.sorted
      have hsp := List.pairwise_append.1 hsl
      have hmem : ∀ v ∈ pre, v ∈ l := fun v hv => by rw [← e]; simp [hv]
      have hwf : WF M (pre ++ List.replicate (qnSize - pre.length) QNum.none) pre :=
        ⟨rfl, by simp only [qnSize]; omega, hsp.1, fun v hv => h.mod v (hmem v hv),
          fun v hv => h.mod_ne v (hmem v hv), fun v hv => h.red v (hmem v hv)⟩
      have hbl : b ∈ l := by rw [← e]; simp
      have hlt : ∀ v ∈ pre, v.name.key < b.name.key := fun v hv => hsp.2.2 v hv b (by simp)
      have hne : ∀ v ∈ pre, v.name ≠ b.name := fun v hv f => by
        have := hlt v hv; rw [f] at this; omega
      have hact : ∀ w ∈ pre, w.active = true := fun w hw => by
        simp [QNum.active, h.mod_ne w (hmem w hw)]
      obtain ⟨j, hj⟩ : ∃ j, 4 - pre.length = j + 1 := ⟨3 - pre.length, by omega⟩
      have hins : ins b pre = pre ++ [b] := by
        clear * - hlt hne
        induction pre with
        | nil => rfl
        | cons a w ih =>
          have h1 := hlt a (by simp)
          have : ¬ (b.name.lt a.name = true) := by simp [Tag.lt]; omega
          simp only [ins, hne a (by simp), if_false, this, List.cons_append]
          rw [ih (fun v hv => hlt v (by simp [hv])) (fun v hv => hne v (by simp [hv]))]
          rfl
      have hstep : QN.addNum (pre ++ List.replicate (4 - pre.length) QNum.none) b
          = .ok ((pre ++ [b]) ++ List.replicate (4 - (pre ++ [b]).length) QNum.none) := by
        unfold QN.addNum
        have hlast : ((pre ++ List.replicate (4 - pre.length) QNum.none).getD (qnSize - 1)
            QNum.none).active = false := by
          have : (pre ++ List.replicate (4 - pre.length) QNum.none).getD (qnSize - 1) QNum.none
              = QNum.none := by
            simp only [List.getD, qnSize]
            rw [List.getElem?_append_right (by omega), List.getElem?_replicate_of_lt (by omega)]
            rfl
          rw [this]; rfl
        rw [hlast]
        simp only [Bool.false_eq_true, if_false, qnSize]
        have e1 := addNumLoop_skip b pre j []
        rw [List.append_nil] at e1
        rw [hj, show 4 - 1 = pre.length + j by omega, e1, List.replicate_succ,
          addNumLoop_ins b pre _ _ hsp.1 hact hne, hins]
        congr 3; simp; omega
      rw [Res.foldM_cons, hstep, Res.bind_ok]
      exact ih (pre ++ [b]) (by rw [← e]; simp)
  exact key l [] (by simp)

/-! ## Hypotheses are met by concrete states -/

/-- Moduli: "P" is a parity (mod 2), everything else an integer. -/
def exM : Name → Int := fun n => if n = nm 80 then 2 else 1

/-- `QN({"N",3},{"P",1,2})` and `QN({"P",1,2},{"Sz",-1})`. -/
example : ∃ a b : QN, IsQN exM a ∧ IsQN exM b ∧ FitsQ a b ∧ a.val (nm 78) = 3 ∧
    (a.add b).val (nm 80) = 0 ∧ (a.add b).val (nm 78) = 3 := by
  refine ⟨[⟨nm 78, 3, 1⟩, ⟨nm 80, 1, 2⟩, QNum.none, QNum.none],
    [⟨nm 80, 1, 2⟩, ⟨Tag.ofBytes [83, 122], -1, 1⟩, QNum.none, QNum.none],
    ⟨[⟨nm 78, 3, 1⟩, ⟨nm 80, 1, 2⟩], ?_⟩, ⟨[⟨nm 80, 1, 2⟩, ⟨Tag.ofBytes [83, 122], -1, 1⟩], ?_⟩,
    ⟨[nm 78, nm 80, Tag.ofBytes [83, 122]], by decide, by decide, by decide⟩, by decide, by decide,
    by decide⟩
  all_goals exact ⟨by decide, by decide, by unfold NSorted; decide, by decide, by decide, by decide⟩

end Verif.QN
