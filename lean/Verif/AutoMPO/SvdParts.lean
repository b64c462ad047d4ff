import Verif.AutoMPO.JW
import Verif.AutoMPO.Svd

/-!
# What `partitionHTerms` builds (C65)
-/

namespace Verif.AutoMPO

variable {K : Type*} [CommRing K] {Q : Type*} [AddCommMonoid Q] [DecidableEq Q]

section Ins

variable {X : Type*} [DecidableEq X]

theorem mem_ins {x y : X} {b : List X} : y ∈ ins x b ↔ y ∈ b ∨ y = x := by
  unfold ins
  split
  · rename_i h
    exact ⟨.inl, fun h' => h'.elim id fun e => e ▸ h⟩
  · simp

theorem nodup_ins {x : X} {b : List X} (h : b.Nodup) : (ins x b).Nodup := by
  unfold ins
  split
  · exact h
  · rename_i h'
    exact List.nodup_append.2 ⟨h, by simp, by grind⟩

theorem idxOf_ins [BEq X] [LawfulBEq X] {x y : X} {b : List X} (h : y ∈ b) : (ins x b).idxOf y = b.idxOf y := by
  unfold ins
  split
  · rfl
  · exact List.idxOf_append_of_mem h

theorem ins_prefix (x : X) (b : List X) : b <+: ins x b := by
  unfold ins
  split
  · exact List.prefix_refl _
  · exact List.prefix_append _ _

theorem pos_eq (x : List SiteTerm) (b : List (List SiteTerm)) : pos x b = (ins x b, (ins x b).idxOf x) := by
  unfold pos ins
  split
  · rfl
  · rename_i h
    rw [List.idxOf_append_of_notMem h]
    simp

/-- The insertion of what may be there. -/
def insOpt : Option X → List X → List X
  | some x, b => ins x b
  | none, b => b

theorem mem_insOpt {o : Option X} {y : X} {b : List X} : y ∈ insOpt o b ↔ y ∈ b ∨ o = some y := by
  cases o with
  | none => simp [insOpt]
  | some x => simp [insOpt, mem_ins, eq_comm]

theorem nodup_insOpt {o : Option X} {b : List X} (h : b.Nodup) : (insOpt o b).Nodup := by
  cases o with
  | none => exact h
  | some x => exact nodup_ins h

theorem idxOf_insOpt [BEq X] [LawfulBEq X] {o : Option X} {y : X} {b : List X} (h : y ∈ b) : (insOpt o b).idxOf y = b.idxOf y := by
  cases o with
  | none => rfl
  | some x => exact idxOf_ins h

end Ins

section Visit

variable (qn : SiteTerm → Q)

/-- The operators of the term left of the site, on it and right of it, and the quantum numbers of the links. -/
def vl (v : HTerm K × Nat) : List SiteTerm := (decomposeTerm (v.2 : Int) v.1.ops).1
def vm (v : HTerm K × Nat) : List SiteTerm := (decomposeTerm (v.2 : Int) v.1.ops).2.1
def vr (v : HTerm K × Nat) : List SiteTerm := (decomposeTerm (v.2 : Int) v.1.ops).2.2
def lq (v : HTerm K × Nat) : Q := calcQN qn (vl v)
def rq (v : HTerm K × Nat) : Q := calcQN qn (vl v) + calcQN qn (vm v)

/-- What a visit adds to the basis on the right of a block. -/
def addsRight (v : HTerm K × Nat) (n : Nat) (q : Q) : Option (List SiteTerm) :=
  if n = v.2 ∧ q = rq qn v ∧ vr v ≠ [] then some (vr v)
  else if n + 1 = v.2 ∧ q = lq qn v ∧ vl v ≠ [] then some (vm v ++ vr v)
  else none

/-- What a visit adds to the basis on the left of a block. -/
def addsLeft (v : HTerm K × Nat) (n : Nat) (q : Q) : Option (List SiteTerm) :=
  if n + 1 = v.2 ∧ q = lq qn v ∧ vl v ≠ [] then some (vl v) else none

/-- The keys which a visit touches. -/
def addsKey (v : HTerm K × Nat) (n : Nat) : Option Q :=
  if n = v.2 ∧ vr v ≠ [] then some (rq qn v) else if n + 1 = v.2 ∧ vl v ≠ [] then some (lq qn v) else none

/-- The element of a visit, for given bases. -/
def elemOf (right : Nat → Q → List (List SiteTerm)) (ops : List SiteTerm) (v : HTerm K × Nat) : Elem Q K where
  rowqn := lq qn v
  colqn := rq qn v
  row := if vl v = [] then none else some ((right (v.2 - 1) (lq qn v)).idxOf (vm v ++ vr v))
  col := if vr v = [] then none else some ((right v.2 (rq qn v)).idxOf (vr v))
  coef := if vl v = [] then v.1.coef else 1
  ops := ops

theorem temp_if {X : Type*} (c : Prop) [Decidable c] (b : Bool) (x y : X) :
    (if c then if b = true then x else y else x) = if c ∧ ¬b = true then y else x := by
  by_cases hc : c <;> cases b <;> simp [hc]

/-- What a visit does. -/
theorem visit_eq (near : K → K → Bool) (s : Parts Q K) (v : HTerm K × Nat) (hv : 1 ≤ v.2) (ops : List SiteTerm)
    (ho : onsiteOps (v.2 : Int) v.1.ops = .ok ops) :
    ∃ s', visit qn near s v = .ok s' ∧
      (∀ n, s'.keys n = insOpt (addsKey qn v n) (s.keys n)) ∧
      (∀ n q, s'.right n q = insOpt (addsRight qn v n q) (s.right n q)) ∧
      (∀ n q, s'.left n q = insOpt (addsLeft qn v n q) (s.left n q)) ∧
      (∀ n q, s'.mat n q = s.mat n q ++ if n + 1 = v.2 ∧ q = lq qn v ∧ vl v ≠ [] then
        [(((s'.left n q).idxOf (vl v), (s'.right n q).idxOf (vm v ++ vr v)), v.1.coef)] else []) ∧
      (∀ n, s'.temp n = if n = v.2 ∧ ¬(s.temp n).any ((elemOf qn s'.right ops v).same near) then
        s.temp n ++ [elemOf qn s'.right ops v] else s.temp n) := by
  have hn : v.2 - 1 ≠ v.2 := by omega
  have hn' : ∀ n, n + 1 = v.2 ↔ n = v.2 - 1 := by omega
  have el : vl v = (decomposeTerm (v.2 : Int) v.1.ops).1 := rfl
  have em : vm v = (decomposeTerm (v.2 : Int) v.1.ops).2.1 := rfl
  have er : vr v = (decomposeTerm (v.2 : Int) v.1.ops).2.2 := rfl
  have eq1 : lq qn v = calcQN qn (vl v) := rfl
  have eq2 : rq qn v = lq qn v + calcQN qn (vm v) := rfl
  by_cases hl : vl v = []
  · by_cases hr : vr v = []
    · refine ⟨_, by
        unfold visit
        simp only [ho, Res.bind_ok, ← el, ← em, ← er, ← eq1, ← eq2]
        simp only [hl, hr, if_true]
        rfl, ?_⟩
      refine ⟨fun n => ?_, fun n q => ?_, fun n q => ?_, fun n q => ?_, fun n => ?_⟩
      · simp [addsKey, hl, hr, insOpt, addElem]
      · simp [addsRight, hl, hr, insOpt, addElem]
      · simp [addsLeft, hl, insOpt, addElem]
      · simp [hl, addElem]
      · simp only [addElem, elemOf, hl, hr, if_true]
        exact temp_if _ _ _ _
    · have e0 : calcQN qn (vm v) = rq qn v := by rw [eq2, eq1, hl]; simp [calcQN]
      refine ⟨_, by
        unfold visit
        simp only [ho, Res.bind_ok, ← el, ← em, ← er, ← eq1, ← eq2]
        simp only [e0, hl, hr, if_true, if_false]
        rfl, ?_⟩
      simp only [addRight, pos_eq, touch, addElem]
      refine ⟨fun n => ?_, fun n q => ?_, fun n q => ?_, fun n q => ?_, fun n => ?_⟩
      · by_cases h : n = v.2 <;> simp [addsKey, hl, hr, insOpt, h]
      · by_cases h : n = v.2 ∧ q = rq qn v
        · simp [addsRight, hl, hr, insOpt, h.1, h.2, upd]
        · rw [addsRight, if_neg (by tauto), if_neg (by tauto)]
          simp [upd, h, insOpt]
      · simp [addsLeft, hl, insOpt]
      · simp [hl]
      · simp only [elemOf, hl, hr, if_true, if_false, upd, and_self]
        exact temp_if _ _ _ _
  · by_cases hr : vr v = []
    · refine ⟨_, by
        unfold visit
        simp only [ho, Res.bind_ok, ← el, ← em, ← er, ← eq1, ← eq2]
        simp only [hl, hr, if_true, if_false]
        rfl, ?_⟩
      simp only [addRight, addLeft, addMat, pos_eq, touch, addElem]
      refine ⟨fun n => ?_, fun n q => ?_, fun n q => ?_, fun n q => ?_, fun n => ?_⟩
      · by_cases h : n = v.2 - 1
        · simp [addsKey, hl, hr, insOpt, h, hn']
          rw [ins, if_pos (mem_ins.2 (.inr rfl))]
        · simp [addsKey, hl, hr, insOpt, h, hn']
      · by_cases h : n = v.2 - 1 ∧ q = lq qn v
        · simp [addsRight, hl, hr, insOpt, h.1, h.2, upd, hn']
        · rw [addsRight, if_neg (by tauto), if_neg (by rw [hn']; tauto)]
          simp [upd, h, insOpt]
      · by_cases h : n = v.2 - 1 ∧ q = lq qn v
        · simp [addsLeft, hl, insOpt, h.1, h.2, upd, hn']
        · rw [addsLeft, if_neg (by rw [hn']; tauto)]
          simp [upd, h, insOpt]
      · by_cases h : n = v.2 - 1 ∧ q = lq qn v
        · simp [hl, hr, h.1, h.2, upd, hn']
        · rw [if_neg (by rw [hn']; tauto)]
          simp [upd, h]
      · simp only [elemOf, hl, hr, if_true, if_false, upd, and_self, List.append_nil]
        exact temp_if _ _ _ _
    · refine ⟨_, by
        unfold visit
        simp only [ho, Res.bind_ok, ← el, ← em, ← er, ← eq1, ← eq2]
        simp only [hl, hr, if_true, if_false]
        rfl, ?_⟩
      simp only [addRight, addLeft, addMat, pos_eq, touch, addElem]
      refine ⟨fun n => ?_, fun n q => ?_, fun n q => ?_, fun n q => ?_, fun n => ?_⟩
      · by_cases h : n = v.2 - 1
        · simp [addsKey, hl, hr, insOpt, h, hn', hn]
          rw [ins, if_pos (mem_ins.2 (.inr rfl))]
        · by_cases h' : n = v.2
          · have hn2 : v.2 ≠ v.2 - 1 := by omega
            simp [addsKey, hr, insOpt, h', hn2]
          · simp [addsKey, hl, hr, insOpt, h, h', hn']
      · by_cases h : n = v.2 - 1 ∧ q = lq qn v
        · simp [addsRight, hl, hr, insOpt, h.1, h.2, upd, hn', hn]
        · by_cases h' : n = v.2 ∧ q = rq qn v
          · have hn2 : v.2 ≠ v.2 - 1 := by omega
            simp [addsRight, hr, insOpt, h'.1, h'.2, upd, hn2]
          · rw [addsRight, if_neg (by tauto), if_neg (by rw [hn']; tauto)]
            simp [upd, h, h', insOpt]
      · by_cases h : n = v.2 - 1 ∧ q = lq qn v
        · simp [addsLeft, hl, insOpt, h.1, h.2, upd, hn']
        · rw [addsLeft, if_neg (by rw [hn']; tauto)]
          simp [upd, h, insOpt]
      · by_cases h : n = v.2 - 1 ∧ q = lq qn v
        · simp [hl, h.1, h.2, upd, hn', hn]
        · rw [if_neg (by rw [hn']; tauto)]
          simp [upd, h]
      · have hn2 : v.2 ≠ v.2 - 1 := by omega
        simp only [elemOf, hl, hr, if_true, if_false, upd, and_self, hn, hn2, false_and]
        exact temp_if _ _ _ _

/-- What holds after the visits `vs`. -/
structure Inv (near : K → K → Bool) (ops : HTerm K × Nat → List SiteTerm) (vs : List (HTerm K × Nat)) (s : Parts Q K) :
    Prop where
  keys_nodup : ∀ n, (s.keys n).Nodup
  keys_mem : ∀ n q, q ∈ s.keys n ↔ ∃ v ∈ vs, addsKey qn v n = some q
  right_nodup : ∀ n q, (s.right n q).Nodup
  right_mem : ∀ n q x, x ∈ s.right n q ↔ ∃ v ∈ vs, addsRight qn v n q = some x
  left_nodup : ∀ n q, (s.left n q).Nodup
  left_mem : ∀ n q x, x ∈ s.left n q ↔ ∃ v ∈ vs, addsLeft qn v n q = some x
  mat : ∀ n q, s.mat n q = (vs.filter fun v => n + 1 = v.2 ∧ q = lq qn v ∧ vl v ≠ []).map fun v =>
    (((s.left n q).idxOf (vl v), (s.right n q).idxOf (vm v ++ vr v)), v.1.coef)
  temp_nodup : ∀ n, (s.temp n).Nodup
  temp_mem : ∀ n, ∀ e ∈ s.temp n, ∃ v ∈ vs, v.2 = n ∧ e = elemOf qn s.right (ops v) v
  temp_all : ∀ v ∈ vs, ∃ e ∈ s.temp v.2, (elemOf qn s.right (ops v) v).same near e = true

theorem addsRight_left {v : HTerm K × Nat} (h1 : 1 ≤ v.2) (h : vl v ≠ []) :
    addsRight qn v (v.2 - 1) (lq qn v) = some (vm v ++ vr v) := by
  rw [addsRight, if_neg (by rintro ⟨h, _⟩; omega), if_pos ⟨by omega, rfl, h⟩]

theorem addsRight_right {v : HTerm K × Nat} (h : vr v ≠ []) : addsRight qn v v.2 (rq qn v) = some (vr v) := by
  rw [addsRight, if_pos ⟨rfl, rfl, h⟩]

theorem same_refl {near : K → K → Bool} (hnear : ∀ x, near x x = true) (e : Elem Q K) : e.same near e = true := by
  simp [Elem.same, hnear]

/-- The elements of earlier visits do not change. -/
theorem elemOf_congr {right right' : Nat → Q → List (List SiteTerm)} {v : HTerm K × Nat} (h1 : 1 ≤ v.2)
    (h : ∀ n q x, addsRight qn v n q = some x → (right' n q).idxOf x = (right n q).idxOf x) (ops : List SiteTerm) :
    elemOf qn right' ops v = elemOf qn right ops v := by
  unfold elemOf
  congr 1
  · split
    · rfl
    · rename_i hl
      rw [h _ _ _ (addsRight_left qn h1 hl)]
  · split
    · rfl
    · rename_i hr
      rw [h _ _ _ (addsRight_right qn hr)]

theorem inv_step {near : K → K → Bool} (hnear : ∀ x, near x x = true) {ops : HTerm K × Nat → List SiteTerm}
    {vs : List (HTerm K × Nat)} {s : Parts Q K} (hi : Inv qn near ops vs s) (hvs : ∀ v ∈ vs, 1 ≤ v.2)
    (v : HTerm K × Nat) (hv : 1 ≤ v.2) (ho : onsiteOps (v.2 : Int) v.1.ops = .ok (ops v)) :
    ∃ s', visit qn near s v = .ok s' ∧ Inv qn near ops (vs ++ [v]) s' := by
  obtain ⟨s', h0, h1, h2, h3, h4, h5⟩ := visit_eq qn near s v hv (ops v) ho
  have idxR : ∀ n q, ∀ x ∈ s.right n q, (s'.right n q).idxOf x = (s.right n q).idxOf x := fun n q x hx => by
    rw [h2, idxOf_insOpt hx]
  have idxL : ∀ n q, ∀ x ∈ s.left n q, (s'.left n q).idxOf x = (s.left n q).idxOf x := fun n q x hx => by
    rw [h3, idxOf_insOpt hx]
  have hel : ∀ u ∈ vs, elemOf qn s'.right (ops u) u = elemOf qn s.right (ops u) u := fun u hu =>
    elemOf_congr qn (hvs u hu) (fun n q x hx => idxR n q x ((hi.right_mem n q x).2 ⟨u, hu, hx⟩)) _
  refine ⟨s', h0, ?_⟩
  constructor
  · intro n
    rw [h1]
    exact nodup_insOpt (hi.keys_nodup n)
  · intro n q
    rw [h1, mem_insOpt, hi.keys_mem]
    simp [or_and_right, exists_or]
  · intro n q
    rw [h2]
    exact nodup_insOpt (hi.right_nodup n q)
  · intro n q x
    rw [h2, mem_insOpt, hi.right_mem]
    simp [or_and_right, exists_or]
  · intro n q
    rw [h3]
    exact nodup_insOpt (hi.left_nodup n q)
  · intro n q x
    rw [h3, mem_insOpt, hi.left_mem]
    simp [or_and_right, exists_or]
  · intro n q
    rw [h4, hi.mat, List.filter_append, List.map_append]
    congr 1
    · refine List.map_congr_left fun u hu => ?_
      rw [List.mem_filter, decide_eq_true_eq] at hu
      obtain ⟨hu, e1, e2, e3⟩ := hu
      have m1 : vl u ∈ s.left n q := (hi.left_mem n q _).2 ⟨u, hu, by rw [addsLeft, if_pos ⟨e1, e2, e3⟩]⟩
      have m2 : vm u ++ vr u ∈ s.right n q := (hi.right_mem n q _).2 ⟨u, hu, by
        rw [addsRight, if_neg (by rintro ⟨h, _⟩; omega), if_pos ⟨e1, e2, e3⟩]⟩
      rw [idxL n q _ m1, idxR n q _ m2]
    · by_cases h : n + 1 = v.2 ∧ q = lq qn v ∧ vl v ≠ []
      · rw [if_pos h, List.filter_cons_of_pos (by simpa using h)]
        rfl
      · rw [if_neg h, List.filter_cons_of_neg (by simpa using h)]
        rfl
  · intro n
    rw [h5]
    split
    · rename_i h
      refine List.nodup_append.2 ⟨hi.temp_nodup n, by simp, ?_⟩
      intro a ha b hb e
      rw [List.mem_singleton] at hb
      subst hb
      exact h.2 (List.any_eq_true.2 ⟨a, ha, by rw [e]; exact same_refl hnear _⟩)
    · exact hi.temp_nodup n
  · intro n e he
    rw [h5] at he
    have old : e ∈ s.temp n → ∃ v_1 ∈ vs ++ [v], v_1.2 = n ∧ e = elemOf qn s'.right (ops v_1) v_1 := by
      intro he
      obtain ⟨u, hu, e1, e2⟩ := hi.temp_mem n e he
      exact ⟨u, by simp [hu], e1, by rw [hel u hu, e2]⟩
    split at he
    · rename_i h
      rcases List.mem_append.1 he with he | he
      · exact old he
      · rw [List.mem_singleton] at he
        exact ⟨v, by simp, h.1.symm, he⟩
    · exact old he
  · intro u hu
    rcases List.mem_append.1 hu with hu | hu
    · obtain ⟨e, e1, e2⟩ := hi.temp_all u hu
      refine ⟨e, ?_, by rw [hel u hu, e2]⟩
      rw [h5]
      split
      · exact List.mem_append_left _ e1
      · exact e1
    · rw [List.mem_singleton] at hu
      subst hu
      rw [h5]
      split
      · exact ⟨_, List.mem_append_right _ (by simp), same_refl hnear _⟩
      · rename_i h
        have : (s.temp u.2).any ((elemOf qn s'.right (ops u) u).same near) = true := by
          by_contra h'
          exact h ⟨rfl, h'⟩
        obtain ⟨e, e1, e2⟩ := List.any_eq_true.1 this
        exact ⟨e, e1, e2⟩

/-- The visits give something for which the invariant holds. -/
theorem partition_inv {near : K → K → Bool} (hnear : ∀ x, near x x = true) {ops : HTerm K × Nat → List SiteTerm}
    (vs : List (HTerm K × Nat)) (hvs : ∀ v ∈ vs, 1 ≤ v.2 ∧ onsiteOps (v.2 : Int) v.1.ops = .ok (ops v)) :
    ∃ s, Res.foldM (visit qn near) Parts.empty vs = .ok s ∧ Inv qn near ops vs s := by
  induction vs using List.reverseRecOn with
  | nil =>
    refine ⟨_, rfl, ?_⟩
    constructor <;> simp [Parts.empty]
  | append_singleton vs v ih =>
    obtain ⟨s, e1, e2⟩ := ih fun u hu => hvs u (by simp [hu])
    obtain ⟨s', e3, e4⟩ := inv_step qn hnear e2 (fun u hu => (hvs u (by simp [hu])).1) v (hvs v (by simp)).1
      (hvs v (by simp)).2
    refine ⟨s', ?_, e4⟩
    rw [Res.foldM_append, e1, Res.bind_ok, Res.foldM_cons, e3, Res.bind_ok]
    rfl

end Visit

end Verif.AutoMPO
