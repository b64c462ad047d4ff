import Verif.Util.InputLemmas

/-!
# C83: an input file gives back what is written in it

For every text of a document (`Renders`: any spacing, any nesting of groups, any other lines) the value
got for a key in a group is the one that stands after `key =` in that group, and the default is given
exactly when the group has no such item.
-/

namespace Verif.Input

open Verif Verif.Tensor

/-! ## Reading the value -/

theorem afterEq_entry {r : Row} {v tl : List Char} (h : r.Entry v tl) (s : List Char) :
    afterEq (r.rest ++ s) = some (v ++ (tl ++ s)) := by
  obtain ⟨hv, hs, -, b1, b2, hb1, hb2, hr⟩ := h
  rw [afterEq, hr, List.append_assoc, eatwhite_white hb1.white, List.cons_append, eatwhite_cons (by decide)]
  simp only [ne_eq, not_true_eq_false, if_false, List.append_assoc]
  rw [eatwhite_white hb2.white]
  cases v with
  | nil => exact absurd rfl hv
  | cons c v => rw [List.cons_append, eatwhite_cons (hs c (by simp))]

theorem takeWhile_stop {p : Char → Bool} {v s : List Char} (hv : ∀ c ∈ v, p c = true)
    (hs : ∀ c, s.head? = some c → p c = false) : (v ++ s).takeWhile p = v := by
  induction v with
  | nil =>
    cases s with
    | nil => rfl
    | cons c s => simp [hs c rfl]
  | cons c v ih =>
    rw [List.cons_append, List.takeWhile_cons, if_pos (hv c (by simp))]
    rw [ih fun x hx => hv x (by simp [hx])]

theorem readWord_eq {v s : List Char} (h0 : v ≠ []) (hv : ∀ c ∈ v, isSpace c = false)
    (hs : ∀ c, s.head? = some c → isSpace c = true) : readWord (v ++ s) = some v := by
  have h1 : eatwhite (v ++ s) = v ++ s := by
    cases v with
    | nil => exact absurd rfl h0
    | cons c v => rw [List.cons_append, eatwhite_cons (hv c (by simp))]
  rw [readWord]
  simp only [h1]
  rw [takeWhile_stop (fun c hc => by simp [hv c hc]) (fun c hc => by simp [hs c hc])]
  simp [h0]

/-- How an integer is written. -/
def decimal (n : Int) : List Char :=
  if n < 0 then '-' :: Nat.toDigits 10 n.natAbs else Nat.toDigits 10 n.natAbs

theorem digit_not_space {c : Char} (h : c.isDigit = true) : isSpace c = false :=
  isTok_not_space (i := 1) (by simp [isTok, h])

theorem readInt_decimal (n : Int) (h1 : -2147483648 ≤ n) (h2 : n ≤ 2147483647) {s : List Char}
    (hs : ∀ c, s.head? = some c → c.isDigit = false) : readInt (decimal n ++ s) = some n := by
  have hd : ∀ c ∈ Nat.toDigits 10 n.natAbs, c.isDigit = true := fun c hc =>
    Nat.isDigit_of_mem_toDigits (by decide) (by decide) hc
  have hne : Nat.toDigits 10 n.natAbs ≠ [] := Nat.toDigits_ne_nil
  have hdig : digits (Nat.toDigits 10 n.natAbs) = n.natAbs := Nat.ofDigitChars_ten_toDigits
  have htk : (Nat.toDigits 10 n.natAbs ++ s).takeWhile Char.isDigit = Nat.toDigits 10 n.natAbs :=
    takeWhile_stop hd hs
  rw [readInt]
  by_cases hn : n < 0
  · have he : eatwhite (decimal n ++ s) = '-' :: (Nat.toDigits 10 n.natAbs ++ s) := by
      rw [decimal, if_pos hn, List.cons_append, eatwhite_cons (by decide)]
    simp only [he, List.head?_cons, List.tail_cons, beq_self_eq_true, if_true, true_or]
    rw [htk, if_neg hne, hdig]
    have : (-(n.natAbs : Int)) = n := by omega
    rw [this, if_pos ⟨h1, h2⟩]
  · obtain ⟨c, l, hcl⟩ : ∃ c l, Nat.toDigits 10 n.natAbs = c :: l := by
      cases hx : Nat.toDigits 10 n.natAbs with
      | nil => exact absurd hx hne
      | cons c l => exact ⟨c, l, rfl⟩
    have hc : c.isDigit = true := hd c (by simp [hcl])
    have hc1 : c ≠ '-' := by rintro rfl; exact absurd hc (by decide)
    have hc2 : c ≠ '+' := by rintro rfl; exact absurd hc (by decide)
    have he : eatwhite (decimal n ++ s) = Nat.toDigits 10 n.natAbs ++ s := by
      rw [decimal, if_neg hn, hcl, List.cons_append, eatwhite_cons (digit_not_space hc)]
    have hh : (Nat.toDigits 10 n.natAbs ++ s).head? = some c := by rw [hcl]; rfl
    simp only [he, hh]
    have hsg : ¬(some c = some '-' ∨ some c = some '+') := by simp [hc1, hc2]
    simp only [if_neg hsg, htk, if_neg hne, hdig]
    have hb : (some c == some '-') = false := by simp [hc1]
    simp only [hb]
    have : ((n.natAbs : Nat) : Int) = n := by omega
    simp only [Bool.false_eq_true, if_false, this]
    rw [if_pos ⟨h1, h2⟩]

/-! ## The property -/

/-- **C83 (strings).** The word written for the key is what `getString` returns, whatever the default. -/
theorem C83_string {top body : Doc} {text : List Char} (h : Renders top text) {g : Group} (hg : g.Names)
    (hat : g.At top body) {key : List Char} (hkey : IsIdent key) {r : Row} {last : Bool}
    (hl : body.lookup key = some (r, last)) {v tl : List Char} (he : r.Entry v tl)
    (hend : last = true ∨ tl ≠ []) (d : List Char) :
    orDefault (getStringO (some text) g key) d = some (.ok v) ∧
    mandatory (getStringO (some text) g key) = some (.ok v) := by
  obtain ⟨c, u, -, h1, -, h3⟩ := (gotoToken_at h hg hat hkey).2 r last hl
  have h4 : getStringO (some text) g key = some (.ok (some v)) := by
    rw [getStringO, h3, Run.bind_some_ok, afterEq_entry he]
    simp only [Option.bind_some]
    rw [readWord_eq he.1 he.2.1]
    intro x hx
    cases htl : tl with
    | nil =>
      rw [htl] at hx
      rcases hend with hend | hend
      · rw [h1 hend] at hx
        obtain rfl : '\n' = x := by simpa using hx
        decide
      · exact absurd htl hend
    | cons y l =>
      rw [htl] at hx
      obtain rfl : y = x := by simpa using hx
      exact he.2.2.1 y (by simp [htl])
  rw [h4]
  exact ⟨rfl, rfl⟩

/-- **C83 (yes and no).** The same for `getYesNo`, for the six words it knows in any case of letters. -/
theorem C83_yesno {top body : Doc} {text : List Char} (h : Renders top text) {g : Group} (hg : g.Names)
    (hat : g.At top body) {key : List Char} (hkey : IsIdent key) {r : Row} {last : Bool}
    (hl : body.lookup key = some (r, last)) {v tl : List Char} (he : r.Entry v tl)
    (hend : last = true ∨ tl ≠ []) (b : Bool)
    (hb : v.map Char.toLower ∈ if b then ["yes".toList, "y".toList, "true".toList]
      else ["no".toList, "n".toList, "false".toList]) (d : Bool) :
    orDefault (getYesNoO (some text) g key) d = some (.ok b) ∧
    mandatory (getYesNoO (some text) g key) = some (.ok b) := by
  obtain ⟨c, u, -, h1, -, h3⟩ := (gotoToken_at h hg hat hkey).2 r last hl
  have hy : yesNo v = some b := by
    rw [yesNo]
    cases b
    · simp only [Bool.false_eq_true, if_false, List.mem_cons, List.not_mem_nil, or_false] at hb
      rcases hb with hb | hb | hb <;> rw [hb] <;> decide
    · simp only [if_true, List.mem_cons, List.not_mem_nil, or_false] at hb
      rw [if_pos hb]
  have h4 : getYesNoO (some text) g key = some (.ok (some b)) := by
    rw [getYesNoO, h3, Run.bind_some_ok, afterEq_entry he]
    simp only [Option.bind_some]
    rw [readWord_eq he.1 he.2.1]
    · simp only [Option.bind_some, hy]
    intro x hx
    cases htl : tl with
    | nil =>
      rw [htl] at hx
      rcases hend with hend | hend
      · rw [h1 hend] at hx
        obtain rfl : '\n' = x := by simpa using hx
        decide
      · exact absurd htl hend
    | cons y l =>
      rw [htl] at hx
      obtain rfl : y = x := by simpa using hx
      exact he.2.2.1 y (by simp [htl])
  rw [h4]
  exact ⟨rfl, rfl⟩

/-- **C83 (integers).** Every `int` written in decimal is what `getInt` returns; here a comma may follow. -/
theorem C83_int {top body : Doc} {text : List Char} (h : Renders top text) {g : Group} (hg : g.Names)
    (hat : g.At top body) {key : List Char} (hkey : IsIdent key) {r : Row} {last : Bool}
    (hl : body.lookup key = some (r, last)) (n : Int) (h1 : -2147483648 ≤ n) (h2 : n ≤ 2147483647)
    {tl : List Char} (he : r.Entry (decimal n) tl) (d : Int) :
    orDefault (getIntO (some text) g key) d = some (.ok n) ∧
    mandatory (getIntO (some text) g key) = some (.ok n) := by
  obtain ⟨c, u, -, hc1, hc2, h3⟩ := (gotoToken_at h hg hat hkey).2 r last hl
  have h4 : getIntO (some text) g key = some (.ok (some n)) := by
    rw [getIntO, h3, Run.bind_some_ok, afterEq_entry he]
    simp only [Option.bind_some]
    rw [readInt_decimal n h1 h2]
    intro x hx
    cases htl : tl with
    | nil =>
      rw [htl] at hx
      obtain rfl : c = x := by simpa using hx
      cases last with
      | true => rw [hc1 rfl]; decide
      | false => rcases hc2 rfl with h | h <;> rw [h] <;> decide
    | cons y l =>
      rw [htl] at hx
      obtain rfl : y = x := by simpa using hx
      have hsp := he.2.2.1 y (by simp [htl])
      by_contra hdg
      have := digit_not_space (c := y) (by simpa using hdg)
      rw [hsp] at this; exact absurd this (by decide)
  rw [h4]
  exact ⟨rfl, rfl⟩

theorem all_none {text : List Char} {g : Group} {key : List Char}
    (h : gotoToken (some text) g key = some (.ok none)) :
    (∀ d, orDefault (getStringO (some text) g key) d = some (.ok d)) ∧
    (∀ d, orDefault (getIntO (some text) g key) d = some (.ok d)) ∧
    (∀ d, orDefault (getYesNoO (some text) g key) d = some (.ok d)) ∧
    mandatory (getStringO (some text) g key) = some .throw ∧
    mandatory (getIntO (some text) g key) = some .throw ∧
    mandatory (getYesNoO (some text) g key) = some .throw := by
  simp [getStringO, getIntO, getYesNoO, h, Run.bind_some_ok, orDefault, mandatory]

/-- **C83 (absent).** Without an item for the key in the group the default is returned and the mandatory
form throws. -/
theorem C83_absent {top body : Doc} {text : List Char} (h : Renders top text) {g : Group} (hg : g.Names)
    (hat : g.At top body) {key : List Char} (hkey : IsIdent key) (hl : body.lookup key = none) :
    (∀ d, orDefault (getStringO (some text) g key) d = some (.ok d)) ∧
    (∀ d, orDefault (getIntO (some text) g key) d = some (.ok d)) ∧
    (∀ d, orDefault (getYesNoO (some text) g key) d = some (.ok d)) ∧
    mandatory (getStringO (some text) g key) = some .throw ∧
    mandatory (getIntO (some text) g key) = some .throw ∧
    mandatory (getYesNoO (some text) g key) = some .throw :=
  all_none ((gotoToken_at h hg hat hkey).1 hl)

/-- **C83 (no such group).** The same if the file has no group of the name. -/
theorem C83_no_group {top : Doc} {text : List Char} (h : Renders top text) {name : List Char}
    (hn : IsIdent name) (hl : top.Lacks name) (key : List Char) :
    (∀ d, orDefault (getStringO (some text) (.root name) key) d = some (.ok d)) ∧
    (∀ d, orDefault (getIntO (some text) (.root name) key) d = some (.ok d)) ∧
    (∀ d, orDefault (getYesNoO (some text) (.root name) key) d = some (.ok d)) ∧
    mandatory (getStringO (some text) (.root name) key) = some .throw ∧
    mandatory (getIntO (some text) (.root name) key) = some .throw ∧
    mandatory (getYesNoO (some text) (.root name) key) = some .throw := by
  refine all_none ?_
  have h1 : gotoGroup (some text) (.root name) = some (.ok (false, [])) := by
    rw [gotoGroup_root]
    have := G_lacks h hn hl []
    rw [List.append_nil] at this
    rw [this]; rfl
  rw [gotoToken, h1]; rfl

/-! ## The loops end -/

theorem Run.bind_ne_none {α β} {x : Run α} {f : α → Run β} (hx : x ≠ none)
    (hf : ∀ a, x = some (.ok a) → f a ≠ none) : Run.bind x f ≠ none := by
  cases x with
  | none => exact absurd rfl hx
  | some r =>
    cases r with
    | ok a => exact hf a rfl
    | throw => simp [Run.bind]
    | ub => simp [Run.bind]

theorem brk_ne_none (t s : List Char) : brk t s ≠ none := by rw [brk]; split <;> simp

theorem G_ends (name s : List Char) : G name s ≠ none := by
  induction hn : s.length using Nat.strong_induction_on generalizing s with
  | _ n ih =>
    subst hn
    rw [G_eq, groupRound]
    refine Run.bind_ne_none (by simp) fun t ht => ?_
    cases t with
    | none => simp
    | some p =>
      obtain ⟨t, s1⟩ := p
      have h1 := gettoken_length (Option.some.inj ht)
      dsimp only
      split
      · cases eatwhite s1 with
        | nil => simp
        | cons c l => dsimp only; split <;> simp
      · refine Run.bind_ne_none (brk_ne_none _ _) fun s2 h2 => ?_
        refine Run.bind_ne_none (skipLine_ends _ _ (by omega)) fun s3 h3 => ?_
        have := brk_ok h2
        have := skipLine_length _ _ _ h3
        exact ih s3.length (by omega) s3 rfl

theorem T_ends (key s : List Char) : T key s ≠ none := by
  induction hn : s.length using Nat.strong_induction_on generalizing s with
  | _ n ih =>
    subst hn
    rw [T_eq, tokenRound]
    refine Run.bind_ne_none (by simp) fun t ht => ?_
    cases t with
    | none => simp
    | some p =>
      obtain ⟨t, s1⟩ := p
      have h1 := gettoken_length (Option.some.inj ht)
      dsimp only
      split
      · simp
      · split
        · cases eatwhite s1 with
          | nil => simp
          | cons c l => dsimp only; split <;> simp
        · refine Run.bind_ne_none (brk_ne_none _ _) fun s2 h2 => ?_
          refine Run.bind_ne_none (skipItem_ends _ _ (by omega)) fun s3 h3 => ?_
          have := brk_ok h2
          cases s3 with
          | none => simp
          | some s3 =>
            have := skipItem_length _ _ _ h3
            exact ih s3.length (by omega) s3 rfl

/-- **C83 (rounds).** The bounds on the rounds of the loops in the model are never reached, for any file. -/
theorem C83_rounds (f : File) (g : Group) (key : List Char) : gotoToken f g key ≠ none := by
  rw [gotoToken]
  refine Run.bind_ne_none ?_ fun r _ => ?_
  · induction g with
    | root n =>
      cases f with
      | none => simp [gotoGroup]
      | some text => rw [gotoGroup_root]; exact G_ends _ _
    | sub p n ih =>
      rw [gotoGroup_sub]
      exact Run.bind_ne_none ih fun r _ => G_ends _ _
  · split
    · exact T_ends _ _
    · simp

/-! ## Where the claim fails -/

/-- The text of a string. -/
abbrev txt (s : String) : List Char := s.toList

/-- **C83 is false for a file whose last line does not end with a line break**: looking for a group that it
does not have reads the uninitialized character for ever (`get` is not checked, input.cc:200). -/
theorem C83_newline_counterexample :
    orDefault (getIntO (some (txt "input\n{\nN = 10\n}")) (.root (txt "other")) (txt "N")) 5 = some .ub := by
  decide +kernel

/-- **C83 is false for a group inside another**: the search goes on past the end of the parent, so a
group that stands after it is found. -/
theorem C83_parent_counterexample :
    orDefault (getIntO (some (txt "a\n{\nx = 1\n}\nsub\n{\nN = 10\n}\n"))
      (.sub (.root (txt "a")) (txt "sub")) (txt "N")) 5 = some (.ok 10) := by
  decide +kernel

/-- **C83 is false if the bracket `}` stands on the line of the last item**: the search passes over it, and
finds an item outside the group. -/
theorem C83_bracket_counterexample :
    orDefault (getIntO (some (txt "a { x = 1 }\nN = 10\n")) (.root (txt "a")) (txt "N")) 5 =
      some (.ok 10) := by
  decide +kernel

/-- **C83 is false for a word before a separator**: the comma is part of the word got. -/
theorem C83_comma_counterexample :
    orDefault (getStringO (some (txt "a\n{\ns = up, t = dn\n}\n")) (.root (txt "a")) (txt "s")) [] =
      some (.ok (txt "up,")) ∧
    orDefault (getYesNoO (some (txt "a\n{\nq = no, t = dn\n}\n")) (.root (txt "a")) (txt "q")) true =
      some (.ok true) := by
  decide +kernel

theorem tokLoop_full (n i : Nat) (hi : i + n = 512) (acc s : List Char) :
    tokLoop i acc (List.replicate n 'x' ++ s) = .ub := by
  induction n generalizing i acc with
  | zero => rw [tokLoop.eq_def]; simp at hi; simp [hi]
  | succ n ih =>
    rw [tokLoop.eq_def]
    dsimp only
    rw [if_neg (by omega), List.replicate_succ, List.cons_append]
    have : isTok i 'x' = true := by
      have : Char.isAlpha 'x' = true := by decide
      simp [isTok, this]
    simp only [this, if_true]
    exact ih (i + 1) (by omega) _

/-- **C83 is false with a word of 512 letters**: the buffer of `gettoken` is full and is read past its end. -/
theorem C83_long_word_counterexample (s key : List Char) (d : Int) :
    orDefault (getIntO (some (List.replicate 512 'x' ++ s)) (.root (txt "input")) key) d = some .ub := by
  have h0 : eatwhite (List.replicate 512 'x' ++ s) = List.replicate 512 'x' ++ s := by
    rw [List.replicate_succ, List.cons_append, eatwhite_cons (by decide)]
  have h1 : gettoken (List.replicate 512 'x' ++ s) = .ub := by
    rw [gettoken, h0, tokLoop_full 512 0 rfl]
  have h2 : gotoGroup (some (List.replicate 512 'x' ++ s)) (.root (txt "input")) = some .ub := by
    rw [gotoGroup_root, G_eq, groupRound, h1]; rfl
  rw [getIntO, gotoToken, h2]; rfl

/-! ## A file -/

/-- A file like sample/inputfile_dmrg_table. -/
def exText : List Char :=
  txt "# a remark\ninput\n    {\n    N = 100  sites\n    J1 = -2, J2 = 7\n\n    sweeps\n        {\n        maxdim\n        N = 5\n        }\n    quiet = No\n    }\n"

def exBody : Doc :=
  .line [⟨txt "N", txt " = 100  sites"⟩]
  (.line [⟨txt "J1", txt " = -2"⟩, ⟨txt "J2", txt " = 7"⟩]
  (.group (txt "sweeps") (.line [⟨txt "maxdim", []⟩] (.line [⟨txt "N", txt " = 5"⟩] .nil))
  (.line [⟨txt "quiet", txt " = No"⟩] .nil)))

def exDoc : Doc := .line [⟨txt "#", txt " a remark"⟩] (.group (txt "input") exBody .nil)

theorem ident_of {t : List Char} (h : decide (t.length < 512) && (match t with
    | [] => false | c :: cs => isTok 0 c && cs.all (isTok 1)) = true) : IsIdent t := by
  simp only [Bool.and_eq_true, decide_eq_true_eq] at h
  refine ⟨h.1, ?_⟩
  cases t with
  | nil => simp at h
  | cons c cs =>
    have := h.2
    simp only [Bool.and_eq_true, List.all_eq_true] at this
    exact ⟨c, cs, rfl, this.1, this.2⟩

theorem exRenders : Renders exDoc exText := by
  have hw : ∀ l : List Char, l.all isSpace = true → White l := fun l h c hc => List.all_eq_true.1 h c hc
  have hr : ∀ l : List Char, l.all (fun c => c != '\n' && c != ',' && c != ';' && c != '{' && c != '}') = true →
      ∀ c ∈ l, c ≠ '\n' ∧ c ≠ ',' ∧ c ≠ ';' ∧ c ≠ '{' ∧ c ≠ '}' := by
    intro l h c hc
    have := List.all_eq_true.1 h c hc
    simpa [and_assoc] using this
  have hi : ∀ tok rest : List Char, IsIdent tok → (rest.head?.all fun c => !isTok 1 c) = true →
      rest.all (fun c => c != '\n' && c != ',' && c != ';' && c != '{' && c != '}') = true →
      (Row.mk tok rest).Ok := by
    intro tok rest h1 h2 h3
    refine ⟨.inl ⟨h1, ?_⟩, hr _ h3⟩
    intro c hc
    rw [hc] at h2
    simpa using h2
  have l1 : RowsText [⟨txt "#", txt " a remark"⟩] (txt "# a remark") :=
    .one (r := ⟨txt "#", txt " a remark"⟩)
      ⟨.inr ⟨'#', rfl, by decide, by decide, by decide, by decide, by decide⟩, hr _ (by decide)⟩
  have l2 : RowsText [⟨txt "N", txt " = 100  sites"⟩] (txt "N = 100  sites") :=
    .one (hi (txt "N") (txt " = 100  sites") (ident_of (by decide)) (by decide) (by decide))
  have l3 : RowsText [⟨txt "J1", txt " = -2"⟩, ⟨txt "J2", txt " = 7"⟩] (txt "J1 = -2, J2 = 7") :=
    .cons (hi (txt "J1") (txt " = -2") (ident_of (by decide)) (by decide) (by decide)) (.inl rfl)
      (ws := [' ']) (by intro c hc; simp at hc; subst hc; decide)
      (.one (hi (txt "J2") (txt " = 7") (ident_of (by decide)) (by decide) (by decide)))
  have l4 : RowsText [⟨txt "maxdim", []⟩] (txt "maxdim") :=
    .one (hi (txt "maxdim") [] (ident_of (by decide)) (by decide) (by decide))
  have l5 : RowsText [⟨txt "N", txt " = 5"⟩] (txt "N = 5") :=
    .one (hi (txt "N") (txt " = 5") (ident_of (by decide)) (by decide) (by decide))
  have l6 : RowsText [⟨txt "quiet", txt " = No"⟩] (txt "quiet = No") :=
    .one (hi (txt "quiet") (txt " = No") (ident_of (by decide)) (by decide) (by decide))
  have n1 : Renders .nil (txt "    ") := .nil (hw _ (by decide))
  have n2 : Renders .nil (txt "        ") := .nil (hw _ (by decide))
  have b1 := Renders.line (ws := txt "        ") (hw _ (by decide)) l5 n2
  have b2 := Renders.line (ws := txt "\n        ") (hw _ (by decide)) l4 b1
  have b3 := Renders.line (ws := txt "    ") (hw _ (by decide)) l6 n1
  have b4 := Renders.group (ws := txt "\n    ") (name := txt "sweeps") (ws' := txt "\n        ")
    (tl := []) (hw _ (by decide)) (ident_of (by decide)) (hw _ (by decide)) b2 (hr _ (by decide)) b3
  have b5 := Renders.line (ws := txt "    ") (hw _ (by decide)) l3 b4
  have b6 := Renders.line (ws := txt "\n    ") (hw _ (by decide)) l2 b5
  have b7 := Renders.group (ws := []) (name := txt "input") (ws' := txt "\n    ") (tl := [])
    (hw _ (by decide)) (ident_of (by decide)) (hw _ (by decide)) b6 (hr _ (by decide))
    (.nil (ws := []) (hw _ (by decide)))
  have b8 := Renders.line (ws := []) (hw _ (by decide)) l1 b7
  refine cast (congrArg (Renders exDoc) ?_) b8
  decide +kernel

theorem blank_sp : Blank (txt " ") := by
  intro c hc
  obtain rfl : c = ' ' := by simpa [txt] using hc
  decide

/-- An integer with a remark after it, also after lines and groups of other names. -/
example : orDefault (getIntO (some exText) (.root (txt "input")) (txt "N")) 1 = some (.ok 100) :=
  (C83_int exRenders (g := .root (txt "input")) (ident_of (by decide)) (body := exBody) (by rfl)
    (key := txt "N") (ident_of (by decide)) (r := ⟨txt "N", txt " = 100  sites"⟩) (last := true) (by rfl) 100
    (by decide) (by decide) (tl := txt "  sites")
    ⟨by decide, by decide, by decide, txt " ", txt " ", blank_sp, blank_sp, by rfl⟩ 1).1

/-- The same key in the group inside. -/
example : orDefault (getIntO (some exText) (.sub (.root (txt "input")) (txt "sweeps")) (txt "N")) 1 =
    some (.ok 5) :=
  (C83_int exRenders (g := .sub (.root (txt "input")) (txt "sweeps"))
    ⟨ident_of (by decide), ident_of (by decide)⟩
    (body := .line [⟨txt "maxdim", []⟩] (.line [⟨txt "N", txt " = 5"⟩] .nil)) ⟨exBody, by rfl, by rfl⟩
    (key := txt "N") (ident_of (by decide)) (r := ⟨txt "N", txt " = 5"⟩) (last := true) (by rfl) 5
    (by decide) (by decide) (tl := [])
    ⟨by decide, by decide, by decide, txt " ", txt " ", blank_sp, blank_sp, by rfl⟩ 1).1

/-- The model run on the file. -/
example : orDefault (getIntO (some exText) (.root (txt "input")) (txt "J1")) 1 = some (.ok (-2)) ∧
    orDefault (getYesNoO (some exText) (.root (txt "input")) (txt "quiet")) true = some (.ok false) ∧
    orDefault (getIntO (some exText) (.root (txt "input")) (txt "maxdim")) 3 = some (.ok 3) ∧
    orDefault (getIntO (some exText) (.root (txt "nothere")) (txt "N")) 4 = some (.ok 4) ∧
    mandatory (getIntO none (.root (txt "input")) (txt "N")) = some .throw := by
  decide +kernel

end Verif.Input
