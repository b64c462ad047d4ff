import Verif.Util.Args

/-!
# Model of `Args::processString` and `Args::addByString` (util/args.cc:385-444), property C117

Characters are bytes: `,` is 44, `=` is 61, a space is 32, `+` is 43, `-` is 45, `.` is 46, digits are 48 to 57. The C function `strtod` is a
parameter: for a text it gives `none` if it sets `errno` to `ERANGE`, else the number read and how many characters were read; other values of
`errno` are not modelled (C does not ask for any).
-/

namespace Verif.Util.Args

open Verif InfArray

variable {R : Type*}

/-- The condition on the first character of a value (args.cc:421). -/
def leads (f : UInt8) : Bool := f == 49 || f == 45 || (48 ≤ f && f ≤ 57) || f == 43

/-- `"false"` and `"true"` (args.cc:440-441). -/
def falseText : List UInt8 := [102, 97, 108, 115, 101]
def trueText : List UInt8 := [116, 114, 117, 101]

/-- The last three lines of `addByString` (args.cc:440-442). -/
def addText (s : Store R) (name val : List UInt8) : Res (Store R) :=
  if val = falseText then addVal s (Val.make name (.bool false))
  else if val = trueText then addVal s (Val.make name (.bool true))
  else addVal s (Val.make name (.str val))

/-- The body of the numeric branch (args.cc:423-437). -/
def addNumber (s : Store R) (name : List UInt8) : Option (R × Nat) → Res (Store R)
  | none => .throw
  | some d => addVal s (Val.make name (.num d.1))

/-- `addByString` (args.cc:401-444). -/
def addByString (strtod : List UInt8 → Option (R × Nat)) (s : Store R) (o : List UInt8) : Res (Store R) :=
  if o.length < 1 then .ok s
  else match o.findIdx? (· == 61) with
    | none => addVal s (Val.make o (.bool true))
    | some found =>
      if (o.take found).length < 1 || (o.drop (found + 1)).length < 1 then .ok s
      else if leads ((o.drop (found + 1)).headD 0) then addNumber s (o.take found) (strtod (o.drop (found + 1)))
      else addText s (o.take found) (o.drop (found + 1))

/-- The loop of `processString` and the line after it (args.cc:390-398). The number of rounds is bounded by the first argument; `processString`
gives a bound which is never met (`C117` shows it for all strings it speaks of). -/
def processLoop (strtod : List UInt8 → Option (R × Nat)) : Nat → Store R → List UInt8 → Res (Store R)
  | 0, _, _ => .ub
  | n + 1, s, o => match o.findIdx? (· == 44) with
    | none => addByString strtod s o
    | some found => (addByString strtod s (o.take found)).bind fun s' => processLoop strtod n s' (o.drop (found + 1))

/-- `processString` (args.cc:385-399): spaces are removed first. It is what `Args(const char*)`, `Args(string)` and `add(const char*)` call
(args.cc:200-210, 297-301). -/
def processString (strtod : List UInt8 → Option (R × Nat)) (s : Store R) (o : List UInt8) : Res (Store R) :=
  processLoop strtod ((o.filter (· != 32)).length + 1) s (o.filter (· != 32))

/-! ## Specification -/

/-- One part of an option string: a name alone, a name and a value, or a part which says nothing. -/
inductive Item
  | flag (n : List UInt8)
  | pair (n t : List UInt8)
  | blank (t : List UInt8)

/-- How it is written. -/
def Item.text : Item → List UInt8
  | .flag n => n
  | .pair n t => n ++ 61 :: t
  | .blank t => t

/-- The characters it may have. A blank part is empty, or has no name, or no value. -/
def Item.Fine : Item → Prop
  | .flag n => n ≠ [] ∧ 44 ∉ n ∧ 61 ∉ n ∧ 32 ∉ n
  | .pair n t => (n ≠ [] ∧ 44 ∉ n ∧ 61 ∉ n ∧ 32 ∉ n) ∧ t ≠ [] ∧ 44 ∉ t ∧ 32 ∉ t
  | .blank t => (44 ∉ t ∧ 32 ∉ t) ∧ (t = [] ∨ (∃ u, t = 61 :: u) ∨ ∃ n, 61 ∉ n ∧ t = n ++ [61])

/-- A text is the number `r` if `strtod` reads all of it. -/
def IsNumber (strtod : List UInt8 → Option (R × Nat)) (t : List UInt8) (r : R) : Prop := strtod t = some (r, t.length)

/-- What it is to set: a name alone stands for `true`; a value is a number if it reads as one as a whole, `true`, `false`, or else a text. -/
inductive Item.Sets (strtod : List UInt8 → Option (R × Nat)) : Item → List UInt8 → Value R → Prop
  | flag (n) : Sets strtod (.flag n) n (.bool true)
  | num (n t r) : IsNumber strtod t r → Sets strtod (.pair n t) n (.num r)
  | yes (n) : (∀ r, ¬IsNumber strtod trueText r) → Sets strtod (.pair n trueText) n (.bool true)
  | no (n) : (∀ r, ¬IsNumber strtod falseText r) → Sets strtod (.pair n falseText) n (.bool false)
  | str (n t) : (∀ r, ¬IsNumber strtod t r) → t ≠ trueText → t ≠ falseText → Sets strtod (.pair n t) n (.str t)

/-- Parts with commas between them. -/
def commaJoin : List (List UInt8) → List UInt8
  | [] => []
  | [x] => x
  | x :: y :: ys => x ++ 44 :: commaJoin (y :: ys)

/-! ## Proofs -/

theorem findIdx?_cut (c : UInt8) (n t : List UInt8) (h : c ∉ n) :
    (n ++ c :: t).findIdx? (· == c) = some n.length := by
  induction n with
  | nil => simp [List.findIdx?_cons]
  | cons a n ih =>
    have ha : ¬ a = c := fun e => h (by simp [e])
    rw [List.cons_append, List.findIdx?_cons]
    simp [ha, ih (fun hc => h (by simp [hc]))]

theorem findIdx?_absent (c : UInt8) (n : List UInt8) (h : c ∉ n) : n.findIdx? (· == c) = none := by
  rw [List.findIdx?_eq_none_iff]
  intro x hx
  simpa using fun e : x = c => h (e ▸ hx)

theorem processLoop_join (strtod : List UInt8 → Option (R × Nat)) : ∀ (xs : List (List UInt8)) (x : List UInt8) (s : Store R) (n : Nat),
    (∀ y ∈ x :: xs, 44 ∉ y) → (commaJoin (x :: xs)).length < n →
    processLoop strtod n s (commaJoin (x :: xs)) = Res.foldM (addByString strtod) s (x :: xs) := by
  intro xs
  induction xs with
  | nil =>
    intro x s n hx hn
    obtain ⟨n, rfl⟩ : ∃ k, n = k + 1 := ⟨n - 1, by omega⟩
    simp only [commaJoin, processLoop, findIdx?_absent 44 x (hx x (by simp)), Res.foldM_cons, Res.foldM_nil]
    cases addByString strtod s x <;> rfl
  | cons y ys ih =>
    intro x s n hx hn
    obtain ⟨n, rfl⟩ : ∃ k, n = k + 1 := ⟨n - 1, by omega⟩
    simp only [commaJoin, List.length_append, List.length_cons] at hn
    rw [Res.foldM_cons]
    simp only [commaJoin, processLoop, findIdx?_cut 44 x _ (hx x (by simp))]
    rw [List.take_left', show (x ++ 44 :: commaJoin (y :: ys)).drop (x.length + 1) = commaJoin (y :: ys) by
      rw [← List.drop_drop, List.drop_left']; rfl; rfl]
    · congr 1
      funext s'
      exact ih y s' n (fun z hz => hx z (List.mem_cons_of_mem _ hz)) (by omega)
    · rfl

theorem chop_of_fine {n : List UInt8} (h1 : 61 ∉ n) (h2 : 32 ∉ n) : chopSpaceEq n = n := by
  unfold chopSpaceEq
  have : (n.reverse.dropWhile fun c => c == 61 || c == 32) = n.reverse := by
    cases hr : n.reverse with
    | nil => rfl
    | cons a l =>
      have ha : a ∈ n := by rw [← List.mem_reverse, hr]; simp
      have e1 : ¬ a = 61 := fun e => h1 (e ▸ ha)
      have e2 : ¬ a = 32 := fun e => h2 (e ▸ ha)
      simp [e1, e2]
  rw [this, List.reverse_reverse]

/-- `addByString` on a name and a value. -/
theorem addByString_pair (strtod : List UInt8 → Option (R × Nat)) (s : Store R) {n t : List UInt8} (hn : n ≠ []) (hn1 : 61 ∉ n) (ht : t ≠ []) :
    addByString strtod s (n ++ 61 :: t) =
      if leads (t.headD 0) then addNumber s n (strtod t) else addText s n t := by
  have hnl := List.length_pos_iff.2 hn
  have htl := List.length_pos_iff.2 ht
  unfold addByString
  rw [if_neg (by simp), findIdx?_cut 61 n t hn1]
  have e1 : (n ++ 61 :: t).take n.length = n := List.take_left' rfl
  have e2 : (n ++ 61 :: t).drop (n.length + 1) = t := by rw [← List.drop_drop, List.drop_left']; rfl; rfl
  simp only [e1, e2]
  rw [if_neg (by simp [hn, ht])]

theorem addByString_blank (strtod : List UInt8 → Option (R × Nat)) (s : Store R) {t : List UInt8}
    (h : t = [] ∨ (∃ u, t = 61 :: u) ∨ ∃ n, 61 ∉ n ∧ t = n ++ [61]) : addByString strtod s t = .ok s := by
  unfold addByString
  rcases h with rfl | ⟨u, rfl⟩ | ⟨n, hn, rfl⟩
  · rfl
  · simp [List.findIdx?_cons]
  · rw [if_neg (by simp), findIdx?_cut 61 n [] hn]
    simp

theorem addByString_item (strtod : List UInt8 → Option (R × Nat)) {s : Store R} {ks : List OptName} {m : OptName → Option (Value R)}
    (h : MapRep s ks m) (i : Item) (hi : i.Fine)
    (hnum : ∀ n t, i = .pair n t → (leads (t.headD 0) = true ↔ ∃ r, IsNumber strtod t r)) :
    ∃ s' ks' m', addByString strtod s i.text = .ok s' ∧ MapRep s' ks' m' ∧
      ((∃ n v, i.Sets strtod n v ∧ m' = fun k => if k = n then some v else m k) ∨ (∃ t, i = .blank t) ∧ m' = m) := by
  cases i with
  | blank t => exact ⟨s, ks, m, addByString_blank strtod s hi.2, h, .inr ⟨⟨t, rfl⟩, rfl⟩⟩
  | flag n =>
    obtain ⟨h0, h1, h2, h3⟩ := hi
    obtain ⟨s', e, r⟩ := h.addVal (Val.make n (.bool true)) (by simp [Val.make])
    refine ⟨s', _, _, ?_, r, .inl ⟨n, _, .flag n, by simp [Val.make, chop_of_fine h2 h3]⟩⟩
    have := List.length_pos_iff.2 h0
    unfold addByString
    rw [Item.text, if_neg (by omega), findIdx?_absent 61 n h2]
    exact e
  | pair n t =>
    obtain ⟨⟨h0, h1, h2, h3⟩, t0, t1, t2⟩ := hi
    have key : ∀ v : Value R, v ≠ .none → (Item.pair n t).Sets strtod n v → addByString strtod s (n ++ 61 :: t) = addVal s (Val.make n v) →
        ∃ s' ks' m', addByString strtod s (Item.pair n t).text = .ok s' ∧ MapRep s' ks' m' ∧
        ((∃ n' v, (Item.pair n t).Sets strtod n' v ∧ m' = fun k => if k = n' then some v else m k) ∨
          (∃ u, Item.pair n t = .blank u) ∧ m' = m) := by
      intro v hv hs e
      obtain ⟨s', e', r⟩ := h.addVal (Val.make n v) hv
      exact ⟨s', _, _, e.trans e', r, .inl ⟨n, v, hs, by simp [Val.make, chop_of_fine h2 h3]⟩⟩
    have hp := addByString_pair strtod s h0 h2 t0
    by_cases hl : leads (t.headD 0) = true
    · obtain ⟨r, hr⟩ := (hnum n t rfl).1 hl
      refine key (.num r) (by simp) (.num n t r hr) ?_
      rw [hp, if_pos hl, show strtod t = some (r, t.length) from hr]
      rfl
    · have hno : ∀ r, ¬IsNumber strtod t r := fun r hr => hl ((hnum n t rfl).2 ⟨r, hr⟩)
      rw [if_neg hl] at hp
      unfold addText at hp
      by_cases hf : t = falseText
      · subst hf
        exact key (.bool false) (by simp) (.no n hno) (by rw [hp, if_pos rfl])
      by_cases hy : t = trueText
      · subst hy
        exact key (.bool true) (by simp) (.yes n hno) (by rw [hp, if_neg hf, if_pos rfl])
      exact key (.str t) (by simp) (.str n t hno hy hf) (by rw [hp, if_neg hf, if_neg hy])

theorem Item.text_fine {i : Item} (h : i.Fine) : 44 ∉ i.text := by
  cases i with
  | flag n => exact h.2.1
  | pair n t =>
    have h1 := h.1.2.1
    have h2 := h.2.2.1
    simp [Item.text, h1, h2]
  | blank t => exact h.1.1

theorem fold_items (strtod : List UInt8 → Option (R × Nat)) : ∀ (items : List Item) {s : Store R} {ks : List OptName}
    {m : OptName → Option (Value R)}, MapRep s ks m → (∀ i ∈ items, i.Fine) →
    (∀ n t, Item.pair n t ∈ items → (leads (t.headD 0) = true ↔ ∃ r, IsNumber strtod t r)) →
    ∃ s' ks' m', Res.foldM (addByString strtod) s (items.map Item.text) = .ok s' ∧ MapRep s' ks' m' ∧
      ∀ k, (∃ pre i post v, items = pre ++ i :: post ∧ i.Sets strtod k v ∧ (∀ j ∈ post, ∀ w, ¬j.Sets strtod k w) ∧ m' k = some v) ∨
        ((∀ j ∈ items, ∀ w, ¬j.Sets strtod k w) ∧ m' k = m k) := by
  intro items
  induction items with
  | nil => intro s ks m h _ _; exact ⟨s, ks, m, rfl, h, fun k => .inr ⟨by simp, rfl⟩⟩
  | cons i items ih =>
    intro s ks m h hf hn
    obtain ⟨s1, k1, m1, e1, r1, c1⟩ := addByString_item strtod h i (hf i (by simp)) (fun n t e => hn n t (by simp [e]))
    obtain ⟨s2, k2, m2, e2, r2, c2⟩ := ih r1 (fun j hj => hf j (by simp [hj])) (fun n t e => hn n t (by simp [e]))
    refine ⟨s2, k2, m2, by rw [List.map_cons, Res.foldM_cons, e1]; exact e2, r2, fun k => ?_⟩
    rcases c2 k with ⟨pre, j, post, v, rfl, hs, hp, hm⟩ | ⟨hp, hm⟩
    · exact .inl ⟨i :: pre, j, post, v, rfl, hs, hp, hm⟩
    · rcases c1 with ⟨n, v, hs, rfl⟩ | ⟨⟨t, rfl⟩, rfl⟩
      · by_cases hk : k = n
        · subst hk
          exact .inl ⟨[], i, items, v, rfl, hs, hp, by rw [hm]; simp⟩
        · refine .inr ⟨fun j hj w hw => ?_, by rw [hm]; simp [hk]⟩
          rcases List.mem_cons.1 hj with rfl | hj
          · cases hs <;> cases hw <;> exact hk rfl
          · exact hp j hj w hw
      · refine .inr ⟨fun j hj w hw => ?_, hm⟩
        rcases List.mem_cons.1 hj with rfl | hj
        · cases hw
        · exact hp j hj w hw

/-- **C117 (partial).** An option string, with spaces anywhere, sets every option which has a part in it to what the last such part says, and
leaves the other options as they were. Missing: texts which begin with a digit or a sign but are not numbers, and numbers which begin with
another character, see the counterexamples. -/
theorem C117_string_partial (strtod : List UInt8 → Option (R × Nat)) (items : List Item) (hf : ∀ i ∈ items, i.Fine)
    (hnum : ∀ n t, Item.pair n t ∈ items → (leads (t.headD 0) = true ↔ ∃ r, IsNumber strtod t r))
    (str : List UInt8) (hstr : str.filter (· != 32) = commaJoin (items.map Item.text))
    {s : Store R} {ks : List OptName} {m : OptName → Option (Value R)} (h : MapRep s ks m) :
    ∃ s' ks' m', processString strtod s str = .ok s' ∧ MapRep s' ks' m' ∧
      ∀ k, (∃ pre i post v, items = pre ++ i :: post ∧ i.Sets strtod k v ∧ (∀ j ∈ post, ∀ w, ¬j.Sets strtod k w) ∧ m' k = some v) ∨
        ((∀ j ∈ items, ∀ w, ¬j.Sets strtod k w) ∧ m' k = m k) := by
  obtain ⟨s', k', m', e, r, c⟩ := fold_items strtod items h hf hnum
  refine ⟨s', k', m', ?_, r, c⟩
  unfold processString
  rw [hstr]
  cases items with
  | nil => cases e; rfl
  | cons i items =>
    rw [List.map_cons, processLoop_join strtod _ _ s _ ?_ (by omega)]
    · exact e
    · intro y hy
      rw [← List.map_cons] at hy
      obtain ⟨j, hj, rfl⟩ := List.mem_map.1 hy
      exact Item.text_fine (hf j hj)

/-- **C117.** A number out of range throws, whatever comes after it. -/
theorem C117_range (strtod : List UInt8 → Option (R × Nat)) (items post : List Item) (n t : List UInt8)
    (hf : ∀ i ∈ items ++ .pair n t :: post, i.Fine)
    (hnum : ∀ n t, Item.pair n t ∈ items → (leads (t.headD 0) = true ↔ ∃ r, IsNumber strtod t r))
    (hl : leads (t.headD 0) = true) (hr : strtod t = none)
    (str : List UInt8) (hstr : str.filter (· != 32) = commaJoin ((items ++ .pair n t :: post).map Item.text))
    {s : Store R} {ks : List OptName} {m : OptName → Option (Value R)} (h : MapRep s ks m) :
    processString strtod s str = .throw := by
  have key : ∀ (items : List Item) {s : Store R} {ks : List OptName} {m : OptName → Option (Value R)}, MapRep s ks m →
      (∀ i ∈ items ++ .pair n t :: post, i.Fine) →
      (∀ n t, Item.pair n t ∈ items → (leads (t.headD 0) = true ↔ ∃ r, IsNumber strtod t r)) →
      Res.foldM (addByString strtod) s ((items ++ .pair n t :: post).map Item.text) = .throw := by
    intro items
    induction items with
    | nil =>
      intro s ks m h hf _
      have hi := hf (.pair n t) (by simp)
      obtain ⟨⟨h0, h1, h2, h3⟩, t0, t1, t2⟩ := hi
      rw [List.nil_append, List.map_cons, Res.foldM_cons, show (Item.pair n t).text = n ++ 61 :: t from rfl,
        addByString_pair strtod s h0 h2 t0, if_pos hl, hr]
      rfl
    | cons i items ih =>
      intro s ks m h hf hn
      obtain ⟨s1, k1, m1, e1, r1, c1⟩ := addByString_item strtod h i (hf i (by simp)) (fun n t e => hn n t (by simp [e]))
      rw [List.cons_append, List.map_cons, Res.foldM_cons, e1]
      exact ih r1 (fun j hj => hf j (by simp only [List.cons_append, List.mem_cons]; exact .inr hj)) (fun n t e => hn n t (by simp [e]))
  have e := key items h hf hnum
  unfold processString
  rw [hstr]
  cases hx : items ++ .pair n t :: post with
  | nil => simp at hx
  | cons i l =>
    rw [hx] at e hf
    rw [List.map_cons, processLoop_join strtod _ _ s _ ?_ (by omega)]
    · exact e
    · intro y hy
      rw [← List.map_cons] at hy
      obtain ⟨j, hj, rfl⟩ := List.mem_map.1 hy
      exact Item.text_fine (hf j hj)

/-- **C117 fails for texts which begin with a digit or a sign.** Whatever `strtod` does, as long as it does not report a number out of range,
`File=2x` is stored as the number which it reads at the beginning, although the text as a whole is no number; asking for the text throws. -/
theorem C117_text_counterexample (strtod : List UInt8 → Option (R × Nat)) (r : R) (h2x : strtod [50, 120] = some (r, 1)) (junk : Nat → Val R)
    (g : Store R) :
    (∀ q, ¬IsNumber strtod [50, 120] q) ∧
    ∃ s, processString strtod (empty junk) [70, 61, 50, 120] = .ok s ∧ (find s [70]).map (·.map (·.value)) = .ok (some (.num r)) ∧
      ∀ d, getD stringVal g s [70] d = .throw := by
  refine ⟨fun q hq => by unfold IsNumber at hq; rw [h2x] at hq; simp at hq, ?_⟩
  have e : processString strtod (empty junk) [70, 61, 50, 120] = addVal (empty junk) (Val.make [70] (.num r)) := by
    have hj : processString strtod (empty junk) [70, 61, 50, 120] = addByString strtod (empty junk) ([70] ++ 61 :: [50, 120]) := rfl
    rw [hj, addByString_pair strtod _ (by simp) (by decide) (by simp), if_pos (by decide), h2x]
    rfl
  obtain ⟨s, e', hr⟩ := (mapRep_empty junk).addVal (Val.make [70] (.num r)) (by simp [Val.make])
  obtain ⟨o, ho, hv⟩ := hr.find [70]
  have hc : chopSpaceEq [70] = [70] := by decide
  simp only [Val.make, hc, if_true] at hv
  refine ⟨s, e.trans e', by rw [ho]; simp [hv], fun d => ?_⟩
  unfold getD defined get
  rw [ho]
  obtain ⟨v, rfl, hv'⟩ := Option.map_eq_some_iff.1 hv
  simp [stringVal, hv']

/-- **C117 fails for numbers which begin with a point.** `Cutoff=.5` is stored as a text, whatever `strtod` does, and asking for the number
throws. -/
theorem C117_number_counterexample (strtod : List UInt8 → Option (R × Nat)) (junk : Nat → Val R) (g : Store R) :
    ∃ s, processString strtod (empty junk) [67, 61, 46, 53] = .ok s ∧ (find s [67]).map (·.map (·.value)) = .ok (some (.str [46, 53])) ∧
      ∀ d, getD realVal g s [67] d = .throw := by
  have e : processString strtod (empty junk) [67, 61, 46, 53] = addVal (empty junk) (Val.make [67] (.str [46, 53])) := by
    have hj : processString strtod (empty junk) [67, 61, 46, 53] = addByString strtod (empty junk) ([67] ++ 61 :: [46, 53]) := rfl
    rw [hj, addByString_pair strtod _ (by simp) (by decide) (by simp), if_neg (by decide)]
    rfl
  obtain ⟨s, e', hr⟩ := (mapRep_empty junk).addVal (Val.make [67] (.str [46, 53])) (by simp [Val.make])
  obtain ⟨o, ho, hv⟩ := hr.find [67]
  have hc : chopSpaceEq [67] = [67] := by decide
  simp only [Val.make, hc, if_true] at hv
  refine ⟨s, e.trans e', by rw [ho]; simp [hv], fun d => ?_⟩
  unfold getD defined get
  rw [ho]
  obtain ⟨v, rfl, hv'⟩ := Option.map_eq_some_iff.1 hv
  simp [realVal, hv']

/-- `strtod` for one digit: enough for the example below. -/
def oneDigit (t : List UInt8) : Option (Int × Nat) :=
  match t with
  | c :: _ => if 48 ≤ c && c ≤ 57 then some (c.toNat - 48, 1) else some (0, 0)
  | [] => some (0, 0)

/-- `Q, A = 5,B=false,A=7,` sets `Q` to true, `A` to 7 and `B` to false. -/
example : ∃ s, processString oneDigit (empty default) [81, 44, 32, 65, 32, 61, 32, 53, 44, 66, 61, 102, 97, 108, 115, 101, 44, 65, 61, 55, 44] = .ok s ∧
    (find s [65]).map (·.map (·.value)) = .ok (some (.num 7)) ∧ (find s [81]).map (·.map (·.value)) = .ok (some (.bool true)) ∧
    (find s [66]).map (·.map (·.value)) = .ok (some (.bool false)) ∧ (find s [67]).map (·.map (·.value)) = .ok none := by
  obtain ⟨s', k', m', e, r, c⟩ := C117_string_partial oneDigit
    [.flag [81], .pair [65] [53], .pair [66] falseText, .pair [65] [55], .blank []]
    (by simp [Item.Fine, falseText])
    (by
      intro n t h
      simp only [List.mem_cons, Item.pair.injEq, reduceCtorEq, List.not_mem_nil, or_false, false_or] at h
      rcases h with ⟨_, rfl⟩ | ⟨_, rfl⟩ | ⟨_, rfl⟩ <;> simp [leads, IsNumber, oneDigit, falseText])
    [81, 44, 32, 65, 32, 61, 32, 53, 44, 66, 61, 102, 97, 108, 115, 101, 44, 65, 61, 55, 44] (by decide) (mapRep_empty default)
  exact ⟨_, rfl, by decide, by decide, by decide, by decide⟩

/-- `Q,A=5,B` with a `strtod` for which every number is out of range. -/
example : processString (fun _ => (none : Option (Int × Nat))) (empty default) [81, 44, 65, 61, 53, 44, 66] = .throw :=
  C117_range _ [.flag [81]] [.flag [66]] [65] [53] (by simp [Item.Fine]) (by simp) (by decide) rfl _ (by decide) (mapRep_empty default)

end Verif.Util.Args
