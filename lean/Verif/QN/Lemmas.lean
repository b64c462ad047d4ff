import Verif.QN.Model

namespace Verif.QN

open Verif.TagSet (Tag)

/-- Normal form of a value for a modulus: residue in `[0,|m|)` if `|m|>1`, else the integer. -/
def norm (mod v : Int) : Int := if mod.natAbs > 1 then v % (mod.natAbs : Int) else v

theorem setVal_eq_norm (mod v : Int) : setVal mod v = norm mod v := by
  unfold setVal norm
  by_cases h : mod.natAbs > 1
  · have h' : ((mod.natAbs : Nat) : Int) > 1 := by omega
    simp only [h, if_true, h']
    have hnn : (0 : Int) ≤ (mod.natAbs : Int) * (v.natAbs : Int) + v := by
      have h1 : (0 : Int) ≤ (v.natAbs : Int) := by omega
      have h2 : (v.natAbs : Int) ≤ (mod.natAbs : Int) * (v.natAbs : Int) := by
        have := Int.mul_le_mul_of_nonneg_right (show (1 : Int) ≤ (mod.natAbs : Int) by omega) h1
        omega
      omega
    rw [Int.tmod_eq_emod_of_nonneg hnn]
    exact Int.mul_add_emod_self_left _ _ _
  · have h' : ¬ ((mod.natAbs : Nat) : Int) > 1 := by omega
    simp only [h, if_false, h']

@[simp] theorem norm_norm (m v : Int) : norm m (norm m v) = norm m v := by
  unfold norm; split
  · exact Int.emod_emod_of_dvd _ (Int.dvd_refl _)
  · rfl

theorem norm_add_norm_left (m v w : Int) : norm m (norm m v + w) = norm m (v + w) := by
  unfold norm; split
  · rw [Int.emod_add_emod]
  · rfl

theorem norm_add_norm_right (m v w : Int) : norm m (v + norm m w) = norm m (v + w) := by
  rw [Int.add_comm, norm_add_norm_left, Int.add_comm]

theorem norm_neg_norm (m v : Int) : norm m (- norm m v) = norm m (-v) := by
  unfold norm; split
  · rw [Int.neg_emod_eq_sub_emod, Int.neg_emod_eq_sub_emod, Int.sub_emod, Int.emod_emod_of_dvd _ (Int.dvd_refl _), ← Int.sub_emod]
  · rfl

@[simp] theorem norm_zero (m : Int) : norm m 0 = 0 := by unfold norm; split <;> simp

/-- Names strictly increasing in the 64-bit key. -/
def NSorted (l : List QNum) : Prop := l.Pairwise fun a b => a.name.key < b.name.key

/-- Well-formed QN with respect to a modulus for every name: active slots first, names strictly
increasing, values reduced, the remaining slots default. -/
structure WF (M : Name → Int) (q : QN) (l : List QNum) : Prop where
  eq : q = l ++ List.replicate (qnSize - l.length) QNum.none
  len : l.length ≤ qnSize
  sorted : NSorted l
  mod : ∀ v ∈ l, v.mod = M v.name
  mod_ne : ∀ v ∈ l, v.mod ≠ 0
  red : ∀ v ∈ l, norm v.mod v.val = v.val

theorem WF.default (M) : WF M QN.default [] :=
  ⟨rfl, by decide, List.Pairwise.nil, by simp, by simp, by simp⟩

/-- The mathematical content of a list of active slots: value of each name. -/
def lval (l : List QNum) (n : Name) : Int :=
  match l.find? (·.name == n) with
  | some v => v.val
  | Option.none => 0

theorem lval_nil (n : Name) : lval [] n = 0 := rfl

theorem lval_cons (v : QNum) (l : List QNum) (n : Name) :
    lval (v :: l) n = if v.name = n then v.val else lval l n := by
  unfold lval
  by_cases h : v.name = n <;> simp [h]

theorem lval_of_notMem {l : List QNum} {n : Name} (h : ∀ v ∈ l, v.name ≠ n) : lval l n = 0 := by
  induction l with
  | nil => rfl
  | cons v l ih =>
    rw [lval_cons, if_neg (h v (by simp)), ih (fun u hu => h u (by simp [hu]))]

theorem lval_append {l m : List QNum} {n : Name} (h : ∀ v ∈ l, v.name ≠ n) :
    lval (l ++ m) n = lval m n := by
  induction l with
  | nil => rfl
  | cons v l ih =>
    rw [List.cons_append, lval_cons, if_neg (h v (by simp)), ih (fun u hu => h u (by simp [hu]))]

theorem lval_append_mem {l m : List QNum} {n : Name} (h : ∀ v ∈ m, v.name = n → v.val = 0) :
    lval (l ++ m) n = lval l n := by
  induction l with
  | nil =>
    simp only [List.nil_append, lval_nil]
    induction m with
    | nil => rfl
    | cons v m ih =>
      rw [lval_cons]
      split
      · exact h v (by simp) (by assumption)
      · exact ih (fun u hu => h u (by simp [hu]))
  | cons v l ih => simp only [List.cons_append, lval_cons, ih]

theorem WF.val {M q l} (h : WF M q l) (n : Name) : q.val n = lval l n := by
  have : q.val n = lval q n := rfl
  rw [this, h.eq, lval_append_mem]
  intro v hv _
  have := (List.mem_replicate.1 hv).2
  subst this; rfl

theorem WF.length {M q l} (h : WF M q l) : q.length = qnSize := by
  rw [h.eq]; simp; have := h.len; omega

theorem NSorted.ext {l m : List QNum} (hl : NSorted l) (hm : NSorted m)
    (hn : ∀ n, (∃ v ∈ l, v.name = n) ↔ (∃ v ∈ m, v.name = n))
    (hv : ∀ n, lval l n = lval m n) (M : Name → Int)
    (h1 : ∀ v ∈ l, v.mod = M v.name) (h2 : ∀ v ∈ m, v.mod = M v.name) : l = m := by
  induction l generalizing m with
  | nil =>
    cases m with
    | nil => rfl
    | cons b m => obtain ⟨v, hv, _⟩ := (hn b.name).2 ⟨b, by simp, rfl⟩; simp at hv
  | cons a l ih =>
    cases m with
    | nil => obtain ⟨v, hv, _⟩ := (hn a.name).1 ⟨a, by simp, rfl⟩; simp at hv
    | cons b m =>
      have hl' := List.pairwise_cons.1 hl
      have hm' := List.pairwise_cons.1 hm
      have hab : a.name = b.name := by
        apply Tag.key_inj
        obtain ⟨v, hv1, hv2⟩ := (hn a.name).1 ⟨a, by simp, rfl⟩
        obtain ⟨w, hw1, hw2⟩ := (hn b.name).2 ⟨b, by simp, rfl⟩
        rcases List.mem_cons.1 hv1 with e | e
        · rw [← hv2, e]
        · rcases List.mem_cons.1 hw1 with f | f
          · rw [← hw2, f]
          · have := hm'.1 v e; have := hl'.1 w f; rw [hv2] at *; rw [hw2] at *; omega
      have hval : a.val = b.val := by
        have := hv a.name
        rw [lval_cons, lval_cons, if_pos rfl, if_pos hab.symm] at this; exact this
      have hmod : a.mod = b.mod := by
        rw [h1 a (by simp), h2 b (by simp), hab]
      have e : a = b := by
        cases a; cases b; simp_all
      subst e
      congr 1
      have na : ∀ v ∈ l, v.name ≠ a.name := fun v hv e => by
        have := hl'.1 v hv; rw [e] at this; omega
      have nb : ∀ v ∈ m, v.name ≠ a.name := fun v hv e => by
        have := hm'.1 v hv; rw [e] at this; omega
      refine ih hl'.2 hm'.2 ?_ ?_ (fun v hv => h1 v (by simp [hv])) (fun v hv => h2 v (by simp [hv]))
      · intro n
        constructor
        · rintro ⟨v, hv1, rfl⟩
          obtain ⟨w, hw, e⟩ := (hn v.name).1 ⟨v, by simp [hv1], rfl⟩
          rcases List.mem_cons.1 hw with f | f
          · subst f; exact absurd e.symm (na v hv1)
          · exact ⟨w, f, e⟩
        · rintro ⟨v, hv1, rfl⟩
          obtain ⟨w, hw, e⟩ := (hn v.name).2 ⟨v, by simp [hv1], rfl⟩
          rcases List.mem_cons.1 hw with f | f
          · subst f; exact absurd e.symm (nb v hv1)
          · exact ⟨w, f, e⟩
      · intro n
        by_cases hne : a.name = n
        · subst hne; rw [lval_of_notMem na, lval_of_notMem nb]
        · have := hv n; rw [lval_cons, lval_cons, if_neg hne, if_neg hne] at this; exact this

/-- Ideal insertion of a slot in a name-sorted list: add to the slot of the same name or insert. -/
def ins (bv : QNum) : List QNum → List QNum
  | [] => [bv]
  | av :: rest =>
    if av.name = bv.name then av.add bv :: rest
    else if bv.name.lt av.name then bv :: av :: rest
    else av :: ins bv rest

theorem ins_mem {bv : QNum} {l : List QNum} {n : Name} :
    (∃ v ∈ ins bv l, v.name = n) ↔ (n = bv.name ∨ ∃ v ∈ l, v.name = n) := by
  induction l with
  | nil => simp [ins, eq_comm]
  | cons a l ih =>
    simp only [ins]
    split
    · rename_i h
      simp only [List.mem_cons, exists_eq_or_imp]
      have : (a.add bv).name = a.name := rfl
      rw [this]
      constructor
      · rintro (h | h) <;> simp [h]
      · rintro (h' | h' | h')
        · left; rw [h, h']
        · left; exact h'
        · right; exact h'
    · split
      · simp only [List.mem_cons, exists_eq_or_imp]
        rw [eq_comm (a := bv.name)]
      · simp only [List.mem_cons, exists_eq_or_imp, ih]
        constructor
        · rintro (h | h | h) <;> simp [h]
        · rintro (h | h | h) <;> simp [h]

theorem ins_lower {bv : QNum} {l : List QNum} {k : Nat} (hb : k < bv.name.key)
    (h : ∀ v ∈ l, k < v.name.key) : ∀ v ∈ ins bv l, k < v.name.key := by
  intro v hv
  rcases (ins_mem (bv := bv) (l := l) (n := v.name)).1 ⟨v, hv, rfl⟩ with e | ⟨w, hw, e⟩
  · rw [e]; exact hb
  · rw [← e]; exact h w hw

theorem ins_sorted {bv : QNum} {l : List QNum} (h : NSorted l) : NSorted (ins bv l) := by
  induction l with
  | nil => simp [ins, NSorted]
  | cons a l ih =>
    have h' := List.pairwise_cons.1 h
    simp only [ins]
    split
    · exact List.pairwise_cons.2 ⟨h'.1, h'.2⟩
    · rename_i hne
      split
      · rename_i hlt
        simp only [Tag.lt, decide_eq_true_eq] at hlt
        refine List.pairwise_cons.2 ⟨?_, h⟩
        intro v hv
        rcases List.mem_cons.1 hv with e | e
        · subst e; exact hlt
        · have := h'.1 v e; omega
      · rename_i hlt
        simp only [Tag.lt, decide_eq_true_eq] at hlt
        have : a.name.key ≠ bv.name.key := fun e => hne (Tag.key_inj e)
        exact List.pairwise_cons.2 ⟨ins_lower (by omega) h'.1, ih h'.2⟩

theorem ins_length {bv : QNum} {l : List QNum} (h : NSorted l) :
    (ins bv l).length = if (∃ v ∈ l, v.name = bv.name) then l.length else l.length + 1 := by
  induction l with
  | nil => simp [ins]
  | cons a l ih =>
    have h' := List.pairwise_cons.1 h
    simp only [ins]
    split
    · rename_i he; simp [he]
    · rename_i hne
      split
      · rename_i hlt
        simp only [Tag.lt, decide_eq_true_eq] at hlt
        have : ¬ ∃ v ∈ a :: l, v.name = bv.name := by
          rintro ⟨v, hv, e⟩
          rcases List.mem_cons.1 hv with f | f
          · subst f; exact hne e
          · have := h'.1 v f; rw [e] at this; omega
        rw [if_neg this]; rfl
      · simp only [List.length_cons, ih h'.2, List.mem_cons, exists_eq_or_imp, hne, false_or]
        split <;> rfl

theorem ins_lval {bv : QNum} {l : List QNum} (h : NSorted l) (n : Name) :
    lval (ins bv l) n = if n = bv.name then
      (match l.find? (·.name == n) with
       | some av => (av.add bv).val
       | Option.none => bv.val) else lval l n := by
  induction l with
  | nil =>
    simp only [ins, lval_cons, lval_nil, List.find?_nil]
    by_cases e : n = bv.name
    · simp [e]
    · simp [e, Ne.symm e]
  | cons a l ih =>
    have h' := List.pairwise_cons.1 h
    simp only [ins]
    split
    · rename_i he
      rw [lval_cons, lval_cons]
      have : (a.add bv).name = a.name := rfl
      rw [this]
      by_cases e : n = bv.name
      · simp [e, he]
      · have : ¬ a.name = n := by rw [he]; exact Ne.symm e
        simp [e, this]
    · rename_i hne
      split
      · rename_i hlt
        simp only [Tag.lt, decide_eq_true_eq] at hlt
        rw [lval_cons]
        by_cases e : n = bv.name
        · have hnf : (a :: l).find? (·.name == n) = Option.none := by
            rw [List.find?_eq_none]
            intro v hv
            simp only [beq_iff_eq]
            intro f
            rcases List.mem_cons.1 hv with g | g
            · subst g; exact hne (f.trans e)
            · have := h'.1 v g; rw [f, e] at this; omega
          simp only [e] at hnf
          simp [e, hnf]
        · simp [e, Ne.symm e]
      · rw [lval_cons, lval_cons, ih h'.2]
        by_cases e : n = bv.name
        · have : ¬ a.name = n := by rw [e]; exact hne
          simp [e, hne]
        · simp [e]

/-- The array loop agrees with the ideal insertion as long as the result fits. -/
theorem insertNum_eq {bv : QNum} : ∀ {l : List QNum} {k : Nat} {prev : Option Name},
    NSorted l → (∀ v ∈ l, v.active = true) → (∀ p, prev = some p → p.key < bv.name.key) →
    (ins bv l).length ≤ l.length + k →
    insertNum bv prev (l ++ List.replicate k QNum.none) =
      ins bv l ++ List.replicate (l.length + k - (ins bv l).length) QNum.none := by
  intro l
  induction l with
  | nil =>
    intro k prev _ _ _ hk
    simp only [ins, List.length_cons, List.length_nil, Nat.zero_add] at hk
    obtain ⟨k, rfl⟩ : ∃ j, k = j + 1 := ⟨k - 1, by omega⟩
    simp [ins, List.replicate_succ, insertNum, QNum.none, QNum.active]
  | cons a l ih =>
    intro k prev hs ha hp hk
    have h' := List.pairwise_cons.1 hs
    have haa := ha a (by simp)
    simp only [List.cons_append, insertNum, haa, Bool.not_true, Bool.false_eq_true, if_false]
    by_cases he : a.name = bv.name
    · simp [he, ins]
    · by_cases hlt : bv.name.lt a.name = true
      · have hpr : prevLt prev bv.name = true := by
          cases prev with
          | none => rfl
          | some p => simp [prevLt, Tag.lt, hp p rfl]
        simp only [he, if_false, hlt, hpr, Bool.and_self, if_true, ins]
        simp only [ins, he, if_false, hlt, if_true, List.length_cons] at hk
        obtain ⟨k, rfl⟩ : ∃ j, k = j + 1 := ⟨k - 1, by omega⟩
        have : (a :: (l ++ List.replicate (k + 1) QNum.none)).dropLast
            = a :: (l ++ List.replicate k QNum.none) := by
          rw [List.replicate_succ', ← List.append_assoc, ← List.cons_append, List.dropLast_concat]
        rw [this]
        simp only [List.length_cons, List.cons_append]
        have : l.length + 1 + (k + 1) - (l.length + 1 + 1) = k := by omega
        rw [this]
      · simp only [he, if_false, hlt, Bool.false_and, Bool.false_eq_true, ins, List.cons_append]
        congr 1
        simp only [ins, he, if_false, hlt, Bool.false_eq_true, List.length_cons] at hk
        have := ih (k := k) (prev := some a.name) h'.2 (fun v hv => ha v (by simp [hv]))
          (by
            rintro p ⟨⟩
            simp only [Tag.lt, decide_eq_true_eq] at hlt
            have : a.name.key ≠ bv.name.key := fun e => he (Tag.key_inj e)
            omega) (by omega)
        rw [this]
        simp only [List.length_cons]
        congr 2
        omega

/-- `QN.add` stops at the inactive tail. -/
theorem add_append_none (qa : QN) (l : List QNum) (k : Nat) (hl : ∀ v ∈ l, v.active = true) :
    QN.add qa (l ++ List.replicate k QNum.none) = l.foldl (fun q v => insertNum v Option.none q) qa := by
  induction l generalizing qa with
  | nil =>
    cases k with
    | zero => rfl
    | succ k => simp [List.replicate_succ, QN.add, QNum.none, QNum.active]
  | cons b l ih =>
    simp only [List.cons_append, QN.add, hl b (by simp), Bool.not_true, Bool.false_eq_true, if_false,
      List.foldl_cons]
    exact ih _ (fun v hv => hl v (by simp [hv]))

/-- Names occurring in a list of slots. -/
def names (l : List QNum) : List Name := l.map (·.name)

/-- Names of both fit in the four slots. -/
def Fits (l m : List QNum) : Prop := ∃ u : List Name, u.length ≤ qnSize ∧
  (∀ n ∈ names l, n ∈ u) ∧ (∀ n ∈ names m, n ∈ u)

theorem nodup_subset_length {u : List Name} : ∀ {w : List Name}, w.Nodup → (∀ n ∈ w, n ∈ u) →
    w.length ≤ u.length := by
  intro w hw hs
  induction w generalizing u with
  | nil => simp
  | cons a w ih =>
    have h' := List.nodup_cons.1 hw
    have ha := hs a (by simp)
    have := ih (u := u.erase a) h'.2 (fun n hn =>
      (List.mem_erase_of_ne (fun e : n = a => h'.1 (by rw [← e]; exact hn))).2 (hs n (by simp [hn])))
    rw [List.length_erase_of_mem ha] at this
    have : 0 < u.length := List.length_pos_of_mem ha
    simp only [List.length_cons]; omega

theorem NSorted.names_nodup {l : List QNum} (h : NSorted l) : (names l).Nodup := by
  unfold names
  rw [List.nodup_iff_pairwise_ne, List.pairwise_map]
  exact List.Pairwise.imp (fun {a b} hab e => by rw [e] at hab; omega) h

theorem WF.lval_red {M q l} (h : WF M q l) (n : Name) : norm (M n) (lval l n) = lval l n := by
  have hmod := h.mod; have hred := h.red
  clear h
  induction l with
  | nil => simp [lval_nil]
  | cons a l ih =>
    rw [lval_cons]
    split
    · rename_i e; subst e
      rw [← hmod a (by simp), hred a (by simp)]
    · exact ih (fun v hv => hmod v (by simp [hv])) (fun v hv => hred v (by simp [hv]))

theorem fold_ins_spec {M : Name → Int} {u : List Name} (hu : u.length ≤ qnSize) :
    ∀ (m : List QNum) {q : QN} {l : List QNum}, WF M q l → (∀ n ∈ names l, n ∈ u) →
      (∀ n ∈ names m, n ∈ u) → (∀ v ∈ m, v.mod = M v.name) → (∀ v ∈ m, v.mod ≠ 0) →
      (∀ v ∈ m, norm v.mod v.val = v.val) → (names m).Nodup →
      ∃ r, WF M (m.foldl (fun q v => insertNum v Option.none q) q) r ∧
        (∀ n, (∃ v ∈ r, v.name = n) ↔ (∃ v ∈ l, v.name = n) ∨ (∃ v ∈ m, v.name = n)) ∧
        ∀ n, lval r n = norm (M n) (lval l n + lval m n) := by
  intro m
  induction m with
  | nil =>
    intro q l hw _ _ _ _ _ _
    refine ⟨l, hw, by simp, fun n => ?_⟩
    simp only [lval_nil, Int.add_zero]
    exact (hw.lval_red n).symm
  | cons b m ih =>
    intro q l hw hl hm hmod hmne hred hnd
    have hact : ∀ v ∈ l, v.active = true := fun v hv => by simp [QNum.active, hw.mod_ne v hv]
    have hbm := hmod b (by simp)
    have hnd' := List.nodup_cons.1 (show (b.name :: names m).Nodup from hnd)
    have hsub : ∀ n ∈ names (ins b l), n ∈ u := by
      intro n hn
      obtain ⟨v, hv, rfl⟩ := List.mem_map.1 hn
      rcases (ins_mem (bv := b) (l := l) (n := v.name)).1 ⟨v, hv, rfl⟩ with e | ⟨w, hw', e⟩
      · rw [e]; exact hm _ (by simp [names])
      · rw [← e]; exact hl _ (List.mem_map.2 ⟨w, hw', rfl⟩)
    have hlen : (ins b l).length ≤ qnSize := by
      have := nodup_subset_length (ins_sorted (bv := b) hw.sorted).names_nodup hsub
      simp only [names, List.length_map] at this; omega
    have hstep : insertNum b Option.none q =
        ins b l ++ List.replicate (qnSize - (ins b l).length) QNum.none := by
      have hlw := hw.len
      have h1 : l.length + (qnSize - l.length) = qnSize := by omega
      rw [hw.eq, insertNum_eq hw.sorted hact (by simp) (by omega), h1]
    have hfind : ∀ v, l.find? (·.name == b.name) = some v → v ∈ l ∧ v.name = b.name := by
      intro v hv
      exact ⟨List.mem_of_find?_eq_some hv, by simpa using List.find?_some hv⟩
    have hwf : WF M (insertNum b Option.none q) (ins b l) := by
      refine ⟨hstep, hlen, ins_sorted hw.sorted, ?_, ?_, ?_⟩
      all_goals
        clear hstep hlen hsub ih hnd hnd' hact hl hm hfind
        have hs := hw.sorted
        have w1 := hw.mod; have w2 := hw.mod_ne; have w3 := hw.red
        have hb2 := hmne b (by simp); have hb3 := hred b (by simp)
        clear hw hmod hmne hred
        induction l with
        | nil => intro v hv; simp [ins] at hv; subst hv; assumption
        | cons a l ihl =>
          have hs' := List.pairwise_cons.1 hs
          intro v hv
          simp only [ins] at hv
          split at hv
          · rcases List.mem_cons.1 hv with e | e
            · subst e
              first
                | exact w1 a (by simp)
                | exact w2 a (by simp)
                | (simp only [QNum.add, setVal_eq_norm, norm_norm])
            · first
                | exact w1 v (by simp [e])
                | exact w2 v (by simp [e])
                | exact w3 v (by simp [e])
          · split at hv
            · rcases List.mem_cons.1 hv with e | e
              · subst e; assumption
              · first
                  | exact w1 v e
                  | exact w2 v e
                  | exact w3 v e
            · rcases List.mem_cons.1 hv with e | e
              · subst e
                first
                  | exact w1 v (by simp)
                  | exact w2 v (by simp)
                  | exact w3 v (by simp)
              · exact ihl hs'.2 (fun v hv => w1 v (by simp [hv])) (fun v hv => w2 v (by simp [hv]))
                  (fun v hv => w3 v (by simp [hv])) v e
    obtain ⟨r, hr, hrn, hrv⟩ := ih hwf hsub (fun n hn => hm n (by simp [names] at hn ⊢; right; exact hn))
      (fun v hv => hmod v (by simp [hv])) (fun v hv => hmne v (by simp [hv]))
      (fun v hv => hred v (by simp [hv])) hnd'.2
    refine ⟨r, hr, ?_, ?_⟩
    · intro n
      rw [hrn, ins_mem]
      simp only [List.mem_cons, exists_eq_or_imp]
      rw [eq_comm (a := n)]
      grind
    · intro n
      rw [hrv, ins_lval hw.sorted, lval_cons]
      by_cases e : n = b.name
      · subst e
        rw [if_pos rfl, if_pos rfl]
        have hm0 : lval m b.name = 0 := lval_of_notMem (fun v hv e => hnd'.1 (by
          rw [← e]; exact List.mem_map.2 ⟨v, hv, rfl⟩))
        rw [hm0, Int.add_zero]
        cases hf : l.find? (·.name == b.name) with
        | none =>
          simp only
          have : lval l b.name = 0 := by unfold lval; rw [hf]
          rw [this, Int.zero_add]
        | some v =>
          obtain ⟨hv1, hv2⟩ := hfind v hf
          have : lval l b.name = v.val := by unfold lval; rw [hf]
          simp only [QNum.add, setVal_eq_norm, this]
          rw [hw.mod v hv1, hv2, norm_norm]
      · rw [if_neg e, if_neg (fun h => e h.symm)]

/-- `+=` on well-formed QNs whose names fit: pointwise addition modulo the modulus. -/
theorem add_spec {M : Name → Int} {a b : QN} {l m : List QNum} (ha : WF M a l) (hb : WF M b m)
    (hf : Fits l m) : ∃ r, WF M (a.add b) r ∧
      (∀ n, (∃ v ∈ r, v.name = n) ↔ (∃ v ∈ l, v.name = n) ∨ (∃ v ∈ m, v.name = n)) ∧
      ∀ n, lval r n = norm (M n) (lval l n + lval m n) := by
  obtain ⟨u, hu, h1, h2⟩ := hf
  have hact : ∀ v ∈ m, v.active = true := fun v hv => by simp [QNum.active, hb.mod_ne v hv]
  rw [show a.add b = QN.add a (m ++ List.replicate (qnSize - m.length) QNum.none) by rw [← hb.eq],
    add_append_none _ _ _ hact]
  exact fold_ins_spec hu m ha h1 h2 hb.mod hb.mod_ne hb.red hb.sorted.names_nodup

end Verif.QN
