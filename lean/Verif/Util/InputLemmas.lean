import Verif.Util.Input

/-! # Well-formed input files, and lemmas on the loops of `InputGroup` -/

namespace Verif.Input

open Verif Verif.Tensor

/-! ## Well-formed files -/

/-- The words that may name a group or a value: a letter or `_`, then letters, digits and `_`; shorter than
the buffer of `gettoken`. -/
def IsIdent (t : List Char) : Prop :=
  t.length < 512 ∧ ∃ c cs, t = c :: cs ∧ isTok 0 c = true ∧ ∀ x ∈ cs, isTok 1 x = true

/-- An item of a line: its first token, and what comes after it. -/
structure Row where
  tok : List Char
  rest : List Char

/-- The first token is a word, or one character that cannot begin a word; the rest does not go on with
the word and has no separator and no bracket. -/
def Row.Ok (r : Row) : Prop :=
  ((IsIdent r.tok ∧ ∀ c, r.rest.head? = some c → isTok 1 c = false) ∨
    ∃ c, r.tok = [c] ∧ isSpace c = false ∧ isTok 0 c = false ∧ c ≠ '\x00' ∧ c ≠ '{' ∧ c ≠ '}') ∧
  ∀ c ∈ r.rest, c ≠ '\n' ∧ c ≠ ',' ∧ c ≠ ';' ∧ c ≠ '{' ∧ c ≠ '}'

/-- What is written in a file or in a group: lines of items, and groups. -/
inductive Doc where
  | nil
  | line (rows : List Row) (next : Doc)
  | group (name : List Char) (body next : Doc)

/-- White space. -/
def White (l : List Char) : Prop := ∀ c ∈ l, isSpace c = true

/-- White space without a line break. -/
def Blank (l : List Char) : Prop := ∀ c ∈ l, isSpace c = true ∧ c ≠ '\n'

/-- A text of a line: the items, separated by `,` or `;`. -/
inductive RowsText : List Row → List Char → Prop
  | one {r : Row} (h : r.Ok) : RowsText [r] (r.tok ++ r.rest)
  | cons {r : Row} {sep : Char} {ws : List Char} {rs : List Row} {t : List Char} (h : r.Ok)
      (hsep : sep = ',' ∨ sep = ';') (hws : Blank ws) (ht : RowsText rs t) :
      RowsText (r :: rs) (r.tok ++ (r.rest ++ sep :: (ws ++ t)))

/-- The texts of a document: white space is free, a line ends with a line break, a group is its name, the
bracket `{`, what is in it, the bracket `}` and the rest of that line. -/
inductive Renders : Doc → List Char → Prop
  | nil {ws : List Char} (h : White ws) : Renders .nil ws
  | line {ws t rest : List Char} {rows : List Row} {next : Doc} (hws : White ws)
      (ht : RowsText rows t) (hn : Renders next rest) :
      Renders (.line rows next) (ws ++ (t ++ '\n' :: rest))
  | group {ws name ws' bt tl rest : List Char} {body next : Doc} (hws : White ws)
      (hname : IsIdent name) (hws' : White ws') (hb : Renders body bt)
      (htl : ∀ c ∈ tl, c ≠ '\n' ∧ c ≠ ',' ∧ c ≠ ';' ∧ c ≠ '{' ∧ c ≠ '}') (hn : Renders next rest) :
      Renders (.group name body next)
        (ws ++ (name ++ (ws' ++ '{' :: (bt ++ '}' :: (tl ++ '\n' :: rest)))))

/-- The first item of a line with the token `key`, and whether it is the last one of the line. -/
def findRow (key : List Char) : List Row → Option (Row × Bool)
  | [] => none
  | r :: rs => if r.tok = key then some (r, rs.isEmpty) else findRow key rs

/-- The first item with the token `key` that stands in the document and not in one of its groups (none
if a group of that name comes first). -/
def Doc.lookup (key : List Char) : Doc → Option (Row × Bool)
  | .nil => none
  | .line rows next =>
    match findRow key rows with
    | some r => some r
    | none => next.lookup key
  | .group name _ next => if name = key then none else next.lookup key

/-- The first group called `name` that stands in the document and not in one of its groups (none if
a line that begins with this word comes first). -/
def Doc.findGroup (name : List Char) : Doc → Option Doc
  | .nil => none
  | .line rows next => if rows.head?.map Row.tok = some name then none else next.findGroup name
  | .group n body next => if n = name then some body else next.findGroup name

/-- No line begins with `name` and no group is called `name` (at this level). -/
def Doc.Lacks (name : List Char) : Doc → Prop
  | .nil => True
  | .line rows next => rows.head?.map Row.tok ≠ some name ∧ next.Lacks name
  | .group n _ next => n ≠ name ∧ next.Lacks name

/-- `body` is what is written in the group `g` of the file `top`. -/
def Group.At : Group → Doc → Doc → Prop
  | .root n, top, body => top.findGroup n = some body
  | .sub p n, top, body => ∃ pb, p.At top pb ∧ pb.findGroup n = some body

/-- The item is `key = v` and then nothing, or white space and a remark `tl`. -/
def Row.Entry (r : Row) (v tl : List Char) : Prop :=
  v ≠ [] ∧ (∀ c ∈ v, isSpace c = false) ∧ (∀ c, tl.head? = some c → isSpace c = true) ∧
  ∃ b1 b2, Blank b1 ∧ Blank b2 ∧ r.rest = b1 ++ '=' :: (b2 ++ (v ++ tl))

/-! ## White space, tokens and brackets -/

theorem eatwhite_white {ws : List Char} (h : White ws) (s : List Char) :
    eatwhite (ws ++ s) = eatwhite s := by
  induction ws with
  | nil => rfl
  | cons c ws ih =>
    have h1 := h c (by simp)
    simp only [eatwhite, List.cons_append, List.dropWhile_cons, h1, if_true]
    exact ih fun x hx => h x (by simp [hx])

theorem eatwhite_cons {c : Char} (h : isSpace c = false) (s : List Char) :
    eatwhite (c :: s) = c :: s := by simp [eatwhite, h]

theorem eatwhite_idem (s : List Char) : eatwhite (eatwhite s) = eatwhite s := by
  induction s with
  | nil => rfl
  | cons c s ih =>
    by_cases h : isSpace c = true
    · simpa [eatwhite, List.dropWhile_cons, h] using ih
    · simp [eatwhite, List.dropWhile_cons, h]

theorem eatwhite_length (s : List Char) : (eatwhite s).length ≤ s.length :=
  (List.dropWhile_suffix isSpace).length_le

theorem gettoken_eatwhite (s : List Char) : gettoken (eatwhite s) = gettoken s := by
  simp [gettoken, eatwhite_idem]

theorem gettoken_white {ws : List Char} (h : White ws) (s : List Char) :
    gettoken (ws ++ s) = gettoken s := by simp [gettoken, eatwhite_white h]

theorem Blank.white {ws : List Char} (h : Blank ws) : White ws := fun c hc => (h c hc).1

theorem isTok_not_space {i : Nat} {c : Char} (h : isTok i c = true) : isSpace c = false := by
  by_contra hs
  have : isSpace c = true := by simpa using hs
  simp only [isSpace, Bool.or_eq_true, beq_iff_eq] at this
  rcases this with ((((rfl | rfl) | rfl) | rfl) | rfl) | rfl <;>
    · simp only [isTok, Bool.or_eq_true, Bool.and_eq_true] at h
      revert h; simp only [Char.isAlpha, Char.isUpper, Char.isLower, Char.isDigit]; 
      intro h; rcases h with (h | h) | ⟨_, h⟩ <;> exact absurd h (by decide)

theorem isTok_succ {i j : Nat} (hi : i ≠ 0) (hj : j ≠ 0) (c : Char) : isTok i c = isTok j c := by
  have h1 : (i != 0) = true := by simpa using hi
  have h2 : (j != 0) = true := by simpa using hj
  simp only [isTok, h1, h2]

theorem isTok_one_of_zero {c : Char} (h : isTok 0 c = true) : isTok 1 c = true := by
  simp only [isTok] at h ⊢
  simp at h
  rcases h with h | h <;> simp [h]

theorem tokLoop_run (cs : List Char) (i : Nat) (acc s : List Char) (c : Char) (hi : i ≠ 0)
    (hlen : i + cs.length < 512) (hcs : ∀ x ∈ cs, isTok 1 x = true) (hc : isTok 1 c = false) :
    tokLoop i acc (cs ++ c :: s) = .ok (some (acc ++ cs, c :: s)) := by
  induction cs generalizing i acc with
  | nil =>
    have h : isTok i c = false := by rw [isTok_succ hi one_ne_zero]; exact hc
    have h5 : i ≠ 512 := by simp at hlen; omega
    rw [tokLoop.eq_def]; simp [h5, h, hi]
  | cons x cs ih =>
    have h : isTok i x = true := by rw [isTok_succ hi one_ne_zero]; exact hcs x (by simp)
    have h5 : i ≠ 512 := by simp at hlen; omega
    rw [tokLoop.eq_def]
    simp only [h5, if_false, List.cons_append, h, if_true]
    rw [ih (i + 1) _ (by omega) (by simp at hlen; omega) fun y hy => hcs y (by simp [hy])]
    simp

theorem gettoken_ident {t : List Char} (h : IsIdent t) (c : Char) (s : List Char)
    (hc : isTok 1 c = false) : gettoken (t ++ c :: s) = .ok (some (t, c :: s)) := by
  obtain ⟨hlen, x, cs, rfl, hx, hcs⟩ := h
  rw [gettoken, List.cons_append, eatwhite_cons (isTok_not_space hx), tokLoop.eq_def]
  simp only [hx, if_true]
  rw [if_neg (by decide), tokLoop_run cs 1 _ s c one_ne_zero (by simp at hlen; omega) hcs hc]
  simp

theorem gettoken_char {c : Char} (s : List Char) (h1 : isSpace c = false) (h2 : isTok 0 c = false)
    (h3 : c ≠ '\x00') : gettoken (c :: s) = .ok (some ([c], s)) := by
  rw [gettoken, eatwhite_cons h1, tokLoop.eq_def]
  simp [h2, h3]

theorem Row.Ok.gettoken {r : Row} (h : r.Ok) {ws : List Char} (hws : White ws) (c : Char)
    (s : List Char) (hc : isTok 1 c = false) :
    gettoken (ws ++ (r.tok ++ (r.rest ++ c :: s))) = .ok (some (r.tok, r.rest ++ c :: s)) := by
  rw [gettoken_white hws]
  rcases h.1 with ⟨h1, h2⟩ | ⟨x, hx, h1, h2, h3, -, -⟩
  · cases hr : r.rest with
    | nil => exact gettoken_ident h1 c s hc
    | cons y l => exact gettoken_ident h1 y _ (h2 y (by simp [hr]))
  · rw [hx]; exact gettoken_char _ h1 h2 h3

/-- Text without brackets. -/
def Plain (l : List Char) : Prop := ∀ c ∈ l, c ≠ '{' ∧ c ≠ '}'

theorem matchLoop_plain {l : List Char} (h : Plain l) (n : Nat) (s : List Char) :
    matchLoop n (l ++ s) = matchLoop n s := by
  induction l with
  | nil => rfl
  | cons c l ih =>
    have := h c (by simp)
    rw [List.cons_append, matchLoop, if_neg this.1, if_neg this.2]
    exact ih fun x hx => h x (by simp [hx])

theorem White.plain {l : List Char} (h : White l) : Plain l := by
  intro c hc
  have := h c hc
  constructor <;> rintro rfl <;> exact absurd this (by decide)

theorem isTok_plain {i : Nat} {c : Char} (h : isTok i c = true) :
    c ≠ '{' ∧ c ≠ '}' ∧ c ≠ '\n' ∧ c ≠ ',' ∧ c ≠ ';' := by
  have key : ∀ x ∈ ['{', '}', '\n', ',', ';'], isTok i x = false := by
    intro x hx
    have : x.isAlpha = false ∧ (x == '_') = false ∧ x.isDigit = false := by
      simp only [List.mem_cons, List.not_mem_nil, or_false] at hx
      rcases hx with rfl | rfl | rfl | rfl | rfl <;> decide
    simp [isTok, this]
  refine ⟨?_, ?_, ?_, ?_, ?_⟩ <;> rintro rfl <;> exact absurd h (by rw [key _ (by simp)]; decide)

theorem IsIdent.chars {t : List Char} (h : IsIdent t) : ∀ c ∈ t, isTok 1 c = true := by
  obtain ⟨-, x, cs, rfl, hx, hcs⟩ := h
  intro c hc
  rcases List.mem_cons.1 hc with rfl | hc
  · exact isTok_one_of_zero hx
  · exact hcs c hc

theorem IsIdent.plain {t : List Char} (h : IsIdent t) : Plain t := fun c hc =>
  ⟨(isTok_plain (h.chars c hc)).1, (isTok_plain (h.chars c hc)).2.1⟩

/-- A text without brackets and line breaks. -/
def Flat (l : List Char) : Prop := ∀ c ∈ l, c ≠ '{' ∧ c ≠ '}' ∧ c ≠ '\n'

theorem Flat.append {a b : List Char} (ha : Flat a) (hb : Flat b) : Flat (a ++ b) := by
  intro c hc
  rcases List.mem_append.1 hc with h | h
  · exact ha c h
  · exact hb c h

theorem Row.Ok.flat_tok {r : Row} (h : r.Ok) : Flat r.tok := by
  intro c hc
  rcases h.1 with ⟨h1, -⟩ | ⟨x, hx, h1, h2, h3, h4, h5⟩
  · have := isTok_plain (h1.chars c hc); exact ⟨this.1, this.2.1, this.2.2.1⟩
  · rw [hx] at hc
    obtain rfl : c = x := by simpa using hc
    exact ⟨h4, h5, by rintro rfl; exact absurd h1 (by decide)⟩

theorem Row.Ok.flat_rest {r : Row} (h : r.Ok) : Flat r.rest := fun c hc =>
  ⟨(h.2 c hc).2.2.2.1, (h.2 c hc).2.2.2.2, (h.2 c hc).1⟩

theorem Blank.flat {l : List Char} (h : Blank l) : Flat l := fun c hc =>
  ⟨(h.white.plain c hc).1, (h.white.plain c hc).2, (h c hc).2⟩

theorem RowsText.flat {rs : List Row} {t : List Char} (h : RowsText rs t) : Flat t := by
  induction h with
  | one h => exact h.flat_tok.append h.flat_rest
  | cons h hsep hws _ ih =>
    refine h.flat_tok.append (h.flat_rest.append ?_)
    intro c hc
    rcases List.mem_cons.1 hc with rfl | hc
    · rcases hsep with rfl | rfl <;> decide
    · exact (hws.flat.append ih) c hc

theorem Flat.plain {l : List Char} (h : Flat l) : Plain l := fun c hc => ⟨(h c hc).1, (h c hc).2.1⟩

/-- The brackets of a document match. -/
theorem matchLoop_doc {d : Doc} {t : List Char} (h : Renders d t) (n : Nat) (hn : 1 ≤ n) (s : List Char) :
    matchLoop n (t ++ s) = matchLoop n s := by
  induction h generalizing n s with
  | nil h => exact matchLoop_plain h.plain n s
  | line hws ht _ ih =>
    have h1 := matchLoop_plain (l := ['\n']) (by intro c hc; simp at hc; subst hc; decide) n
    simp only [List.append_assoc, List.cons_append]
    rw [matchLoop_plain hws.plain, matchLoop_plain ht.flat.plain]
    rw [← List.singleton_append, h1, ih n hn]
  | @group ws name ws' bt tl rest body next hws hname hws' _ htl _ ihb ih =>
    simp only [List.append_assoc, List.cons_append]
    rw [matchLoop_plain hws.plain, matchLoop_plain hname.plain, matchLoop_plain hws'.plain]
    rw [matchLoop, if_pos rfl, ihb (n + 1) (by omega), matchLoop, if_neg (by decide), if_pos rfl,
      if_neg (by omega), Nat.add_sub_cancel, matchLoop_plain (fun c hc => ⟨(htl c hc).2.2.2.1, (htl c hc).2.2.2.2⟩)]
    have h1 := matchLoop_plain (l := ['\n']) (by intro c hc; simp at hc; subst hc; decide) n
    rw [← List.singleton_append, h1, ih n hn]

theorem matchbracket_doc {d : Doc} {t : List Char} (h : Renders d t) (s : List Char) :
    matchbracket (t ++ '}' :: s) = .ok s := by
  rw [matchbracket, matchLoop_doc h 1 le_rfl, matchLoop, if_neg (by decide), if_pos rfl, if_pos rfl]

/-! ## The loops end -/

theorem matchLoop_length {s s' : List Char} : ∀ {n : Nat}, matchLoop n s = .ok s' → s'.length < s.length := by
  induction s with
  | nil => intro n h; simp [matchLoop] at h
  | cons c s ih =>
    intro n h
    rw [matchLoop] at h
    split at h
    · exact (ih h).trans (by simp)
    · split at h
      · split at h
        · obtain rfl := Res.ok.inj h; simp
        · exact (ih h).trans (by simp)
      · exact (ih h).trans (by simp)

theorem tokLoop_length {s : List Char} : ∀ {i : Nat} {acc t s' : List Char},
    tokLoop i acc s = .ok (some (t, s')) → s'.length ≤ s.length ∧ (i = 0 → s'.length < s.length) := by
  induction s with
  | nil =>
    intro i acc t s' h; rw [tokLoop.eq_def] at h; dsimp only at h
    by_cases h5 : i = 512 <;> simp [h5] at h
  | cons c s ih =>
    intro i acc t s' h
    rw [tokLoop.eq_def] at h
    dsimp only at h
    by_cases h5 : i = 512
    · simp [h5] at h
    · rw [if_neg h5] at h
      split at h
      · have := (ih h).1
        constructor
        · simp; omega
        · intro _; simp; omega
      · split at h
        · simp at h; rw [← h.2]; simp
        · rename_i h0
          simp at h; rw [← h.2]; exact ⟨le_rfl, fun h => absurd h h0⟩

theorem gettoken_length {s t s' : List Char} (h : gettoken s = .ok (some (t, s'))) :
    s'.length < s.length :=
  lt_of_lt_of_le ((tokLoop_length h).2 rfl) (eatwhite_length s)

theorem Run.bind_some_ok {α β} (a : α) (f : α → Run β) : Run.bind (some (.ok a)) f = f a := rfl

theorem skipLine_fuel (s : List Char) : ∀ f f' : Nat, s.length < f → s.length < f' →
    skipLine f s = skipLine f' s := by
  induction hn : s.length using Nat.strong_induction_on generalizing s with
  | _ n ih =>
    subst hn
    intro f f' hf hf'
    obtain ⟨f, rfl⟩ : ∃ k, f = k + 1 := ⟨f - 1, by omega⟩
    obtain ⟨f', rfl⟩ : ∃ k, f' = k + 1 := ⟨f' - 1, by omega⟩
    cases s with
    | nil => rfl
    | cons c s =>
      simp only [List.length_cons] at hf hf' ih
      rw [skipLine, skipLine]
      split
      · cases hm : matchbracket s with
        | ok s' =>
          have := matchLoop_length hm
          exact ih s'.length (by omega) s' rfl f f' (by omega) (by omega)
        | throw => rfl
        | ub => rfl
      · split
        · rfl
        · exact ih s.length (by omega) s rfl f f' (by omega) (by omega)

theorem skipItem_fuel (s : List Char) : ∀ f f' : Nat, s.length < f → s.length < f' →
    skipItem f s = skipItem f' s := by
  induction hn : s.length using Nat.strong_induction_on generalizing s with
  | _ n ih =>
    subst hn
    intro f f' hf hf'
    obtain ⟨f, rfl⟩ : ∃ k, f = k + 1 := ⟨f - 1, by omega⟩
    obtain ⟨f', rfl⟩ : ∃ k, f' = k + 1 := ⟨f' - 1, by omega⟩
    cases s with
    | nil => rfl
    | cons c s =>
      simp only [List.length_cons] at hf hf' ih
      rw [skipItem, skipItem]
      split
      · rfl
      · split
        · cases hm : matchbracket s with
          | ok s' =>
            have := matchLoop_length hm
            exact ih s'.length (by omega) s' rfl f f' (by omega) (by omega)
          | throw => rfl
          | ub => rfl
        · exact ih s.length (by omega) s rfl f f' (by omega) (by omega)

theorem skipLine_length (f : Nat) : ∀ (s s' : List Char), skipLine f s = some (.ok s') →
    s'.length < s.length := by
  induction f with
  | zero => intro s s' h; simp [skipLine] at h
  | succ f ih =>
    intro s s' h
    cases s with
    | nil => simp [skipLine] at h
    | cons c s =>
      rw [skipLine] at h
      split at h
      · cases hm : matchbracket s with
        | ok s1 =>
          rw [hm] at h
          have := matchLoop_length hm
          have := ih s1 s' h
          simp; omega
        | throw => rw [hm] at h; simp [Run.bind] at h
        | ub => rw [hm] at h; simp [Run.bind] at h
      · split at h
        · simp at h; subst h
          have := eatwhite_length s
          simp; omega
        · have := ih s s' h; simp; omega

theorem skipItem_length (f : Nat) : ∀ (s s' : List Char), skipItem f s = some (.ok (some s')) →
    s'.length < s.length := by
  induction f with
  | zero => intro s s' h; simp [skipItem] at h
  | succ f ih =>
    intro s s' h
    cases s with
    | nil => simp [skipItem] at h
    | cons c s =>
      rw [skipItem] at h
      split at h
      · simp at h; subst h
        have := eatwhite_length s
        simp; omega
      · split at h
        · cases hm : matchbracket s with
          | ok s1 =>
            rw [hm] at h
            have := matchLoop_length hm
            have := ih s1 s' h
            simp; omega
          | throw => rw [hm] at h; simp [Run.bind] at h
          | ub => rw [hm] at h; simp [Run.bind] at h
        · have := ih s s' h; simp; omega

theorem skipLine_ends (s : List Char) : ∀ f : Nat, s.length < f → skipLine f s ≠ none := by
  induction hn : s.length using Nat.strong_induction_on generalizing s with
  | _ n ih =>
    subst hn
    intro f hf
    obtain ⟨f, rfl⟩ : ∃ k, f = k + 1 := ⟨f - 1, by omega⟩
    cases s with
    | nil => simp [skipLine]
    | cons c s =>
      simp only [List.length_cons] at hf ih
      rw [skipLine]
      split
      · cases hm : matchbracket s with
        | ok s' =>
          have := matchLoop_length hm
          exact ih s'.length (by omega) s' rfl f (by omega)
        | throw => simp [Run.bind]
        | ub => simp [Run.bind]
      · split
        · simp
        · exact ih s.length (by omega) s rfl f (by omega)

theorem skipItem_ends (s : List Char) : ∀ f : Nat, s.length < f → skipItem f s ≠ none := by
  induction hn : s.length using Nat.strong_induction_on generalizing s with
  | _ n ih =>
    subst hn
    intro f hf
    obtain ⟨f, rfl⟩ : ∃ k, f = k + 1 := ⟨f - 1, by omega⟩
    cases s with
    | nil => simp [skipItem]
    | cons c s =>
      simp only [List.length_cons] at hf ih
      rw [skipItem]
      split
      · simp
      · split
        · cases hm : matchbracket s with
          | ok s' =>
            have := matchLoop_length hm
            exact ih s'.length (by omega) s' rfl f (by omega)
          | throw => simp [Run.bind]
          | ub => simp [Run.bind]
        · exact ih s.length (by omega) s rfl f (by omega)

/-- The bracket part of both outer loops. -/
def brk (t s : List Char) : Run (List Char) :=
  if t.head? = some '{' then some (matchbracket s) else some (.ok s)

theorem brk_ok {t s s' : List Char} (h : brk t s = some (.ok s')) : s'.length ≤ s.length := by
  rw [brk] at h
  split at h
  · exact (matchLoop_length (Option.some.inj h)).le
  · simp at h; rw [h]

/-- What one round of the outer loop of `GotoGroup` does, `k` being the next round. -/
def groupRound (name : List Char) (k : List Char → Run (Bool × List Char)) (s : List Char) :
    Run (Bool × List Char) :=
  Run.bind (some (gettoken s)) fun t =>
    match t with
    | none => some (.ok (false, []))
    | some (t, s) =>
      if t = name then
        match eatwhite s with
        | [] => some .ub
        | c :: s' => if c ≠ '{' then some .throw else some (.ok (true, eatwhite s'))
      else
        Run.bind (brk t s) fun s =>
        Run.bind (skipLine (s.length + 1) s) fun s => k s

theorem groupLoop_succ (name : List Char) (f : Nat) (s : List Char) :
    groupLoop name (f + 1) s = groupRound name (groupLoop name f) s := rfl

theorem groupRound_congr {name : List Char} {k k' : List Char → Run (Bool × List Char)} {s : List Char}
    (h : ∀ s', s'.length < s.length → k s' = k' s') : groupRound name k s = groupRound name k' s := by
  rw [groupRound, groupRound]
  cases hg : gettoken s with
  | throw => rfl
  | ub => rfl
  | ok t =>
    cases t with
    | none => rfl
    | some p =>
      obtain ⟨t, s1⟩ := p
      have h1 := gettoken_length hg
      simp only [Run.bind_some_ok]
      split
      · rfl
      · cases hb : brk t s1 with
        | none => rfl
        | some r =>
          cases r with
          | throw => rfl
          | ub => rfl
          | ok s2 =>
            have h2 := brk_ok hb
            simp only [Run.bind_some_ok]
            cases hs : skipLine (s2.length + 1) s2 with
            | none => rfl
            | some r =>
              cases r with
              | throw => rfl
              | ub => rfl
              | ok s3 =>
                have h3 := skipLine_length _ _ _ hs
                simp only [Run.bind_some_ok]
                exact h s3 (by omega)

theorem groupLoop_fuel (name s : List Char) : ∀ f f' : Nat, s.length < f → s.length < f' →
    groupLoop name f s = groupLoop name f' s := by
  induction hn : s.length using Nat.strong_induction_on generalizing s with
  | _ n ih =>
    subst hn
    intro f f' hf hf'
    obtain ⟨f, rfl⟩ : ∃ k, f = k + 1 := ⟨f - 1, by omega⟩
    obtain ⟨f', rfl⟩ : ∃ k, f' = k + 1 := ⟨f' - 1, by omega⟩
    rw [groupLoop_succ, groupLoop_succ]
    exact groupRound_congr fun s' hs' => ih s'.length hs' s' rfl f f' (by omega) (by omega)

/-- The outer loop of `GotoGroup` with rounds enough. -/
def G (name s : List Char) : Run (Bool × List Char) := groupLoop name (s.length + 1) s

theorem G_eq (name s : List Char) : G name s = groupRound name (G name) s := by
  rw [G, groupLoop_succ]
  exact groupRound_congr fun s' hs' => groupLoop_fuel name s' _ _ (by omega) (by omega)

/-- What one round of the outer loop of `GotoToken` does. -/
def tokenRound (key : List Char) (k : List Char → Run (Option (List Char))) (s : List Char) :
    Run (Option (List Char)) :=
  Run.bind (some (gettoken s)) fun t =>
    match t with
    | none => some (.ok none)
    | some (t, s) =>
      if t.head? = some '}' then some (.ok none)
      else if t = key then
        match eatwhite s with
        | [] => some (.ok none)
        | c :: s' => if c ≠ '=' then some (.ok none) else some (.ok (some (eatwhite s')))
      else
        Run.bind (brk t s) fun s =>
        Run.bind (skipItem (s.length + 1) s) fun r =>
        match r with
        | none => some (.ok none)
        | some s => k s

theorem tokenLoop_succ (key : List Char) (f : Nat) (s : List Char) :
    tokenLoop key (f + 1) s = tokenRound key (tokenLoop key f) s := rfl

theorem tokenRound_congr {key : List Char} {k k' : List Char → Run (Option (List Char))} {s : List Char}
    (h : ∀ s', s'.length < s.length → k s' = k' s') : tokenRound key k s = tokenRound key k' s := by
  rw [tokenRound, tokenRound]
  cases hg : gettoken s with
  | throw => rfl
  | ub => rfl
  | ok t =>
    cases t with
    | none => rfl
    | some p =>
      obtain ⟨t, s1⟩ := p
      have h1 := gettoken_length hg
      simp only [Run.bind_some_ok]
      split
      · rfl
      · split
        · rfl
        · cases hb : brk t s1 with
          | none => rfl
          | some r =>
            cases r with
            | throw => rfl
            | ub => rfl
            | ok s2 =>
              have h2 := brk_ok hb
              simp only [Run.bind_some_ok]
              cases hs : skipItem (s2.length + 1) s2 with
              | none => rfl
              | some r =>
                cases r with
                | throw => rfl
                | ub => rfl
                | ok s3 =>
                  cases s3 with
                  | none => rfl
                  | some s3 =>
                    have h3 := skipItem_length _ _ _ hs
                    simp only [Run.bind_some_ok]
                    exact h s3 (by omega)

theorem tokenLoop_fuel (key s : List Char) : ∀ f f' : Nat, s.length < f → s.length < f' →
    tokenLoop key f s = tokenLoop key f' s := by
  induction hn : s.length using Nat.strong_induction_on generalizing s with
  | _ n ih =>
    subst hn
    intro f f' hf hf'
    obtain ⟨f, rfl⟩ : ∃ k, f = k + 1 := ⟨f - 1, by omega⟩
    obtain ⟨f', rfl⟩ : ∃ k, f' = k + 1 := ⟨f' - 1, by omega⟩
    rw [tokenLoop_succ, tokenLoop_succ]
    exact tokenRound_congr fun s' hs' => ih s'.length hs' s' rfl f f' (by omega) (by omega)

/-- The outer loop of `GotoToken` with rounds enough. -/
def T (key s : List Char) : Run (Option (List Char)) := tokenLoop key (s.length + 1) s

theorem T_eq (key s : List Char) : T key s = tokenRound key (T key) s := by
  rw [T, tokenLoop_succ]
  exact tokenRound_congr fun s' hs' => tokenLoop_fuel key s' _ _ (by omega) (by omega)

theorem G_eatwhite (name s : List Char) : G name (eatwhite s) = G name s := by
  rw [G_eq, G_eq name s, groupRound, groupRound, gettoken_eatwhite]

theorem G_white (name : List Char) {ws : List Char} (h : White ws) (s : List Char) :
    G name (ws ++ s) = G name s := by
  rw [← G_eatwhite, eatwhite_white h, G_eatwhite]

theorem T_eatwhite (key s : List Char) : T key (eatwhite s) = T key s := by
  rw [T_eq, T_eq key s, tokenRound, tokenRound, gettoken_eatwhite]

theorem T_white (key : List Char) {ws : List Char} (h : White ws) (s : List Char) :
    T key (ws ++ s) = T key s := by
  rw [← T_eatwhite, eatwhite_white h, T_eatwhite]

/-! ## Rounds on well-formed texts -/

/-- `skipLine` with rounds enough. -/
def SL (s : List Char) : Run (List Char) := skipLine (s.length + 1) s

theorem SL_cons (c : Char) (s : List Char) : SL (c :: s) =
    if c = '{' then Run.bind (some (matchbracket s)) SL
    else if c = '\n' then some (.ok (eatwhite s)) else SL s := by
  rw [SL, skipLine]
  split
  · cases hm : matchbracket s with
    | ok s' =>
      have := matchLoop_length hm
      exact skipLine_fuel s' _ _ (by simp; omega) (by omega)
    | throw => rfl
    | ub => rfl
  · rfl

theorem SL_flat {l : List Char} (h : Flat l) (s : List Char) : SL (l ++ '\n' :: s) = some (.ok (eatwhite s)) := by
  induction l with
  | nil => rw [List.nil_append, SL_cons, if_neg (by decide), if_pos rfl]
  | cons c l ih =>
    have := h c (by simp)
    rw [List.cons_append, SL_cons, if_neg this.1, if_neg this.2.2]
    exact ih fun x hx => h x (by simp [hx])

/-- `skipItem` with rounds enough. -/
def SI (s : List Char) : Run (Option (List Char)) := skipItem (s.length + 1) s

theorem SI_cons (c : Char) (s : List Char) : SI (c :: s) =
    if c = '\n' ∨ c = ',' ∨ c = ';' then some (.ok (some (eatwhite s)))
    else if c = '{' then Run.bind (some (matchbracket s)) SI else SI s := by
  rw [SI, skipItem]
  split
  · rfl
  · split
    · cases hm : matchbracket s with
      | ok s' =>
        have := matchLoop_length hm
        exact skipItem_fuel s' _ _ (by simp; omega) (by omega)
      | throw => rfl
      | ub => rfl
    · rfl

theorem SI_flat {l : List Char} (h : ∀ c ∈ l, c ≠ '\n' ∧ c ≠ ',' ∧ c ≠ ';' ∧ c ≠ '{' ∧ c ≠ '}')
    {e : Char} (he : e = '\n' ∨ e = ',' ∨ e = ';') (s : List Char) :
    SI (l ++ e :: s) = some (.ok (some (eatwhite s))) := by
  induction l with
  | nil => rw [List.nil_append, SI_cons, if_pos he]
  | cons c l ih =>
    have := h c (by simp)
    rw [List.cons_append, SI_cons, if_neg (by tauto), if_neg this.2.2.2.1]
    exact ih fun x hx => h x (by simp [hx])

theorem space_not_tok {c : Char} (h : isSpace c = true) (i : Nat) : isTok i c = false := by
  by_contra hc
  have := isTok_not_space (i := i) (c := c) (by simpa using hc)
  rw [h] at this; exact absurd this (by decide)

/-- White space either has no line break or goes up to its first one. -/
theorem White.split {l : List Char} (h : White l) :
    Blank l ∨ ∃ a b, Blank a ∧ White b ∧ l = a ++ '\n' :: b := by
  induction l with
  | nil => left; intro c hc; simp at hc
  | cons c l ih =>
    have hc := h c (by simp)
    have hl : White l := fun x hx => h x (by simp [hx])
    by_cases hn : c = '\n'
    · subst hn; exact .inr ⟨[], l, by intro c hc; simp at hc, hl, rfl⟩
    · rcases ih hl with hb | ⟨a, b, ha, hb, rfl⟩
      · left; intro x hx
        rcases List.mem_cons.1 hx with rfl | hx
        · exact ⟨hc, hn⟩
        · exact hb x hx
      · right; refine ⟨c :: a, b, ?_, hb, rfl⟩
        intro x hx
        rcases List.mem_cons.1 hx with rfl | hx
        · exact ⟨hc, hn⟩
        · exact ha x hx

theorem IsIdent.head {t : List Char} (h : IsIdent t) : t.head? ≠ some '{' ∧ t.head? ≠ some '}' := by
  obtain ⟨-, x, cs, rfl, hx, -⟩ := h
  have := isTok_plain hx
  simp [this]

theorem Row.Ok.head {r : Row} (h : r.Ok) : r.tok.head? ≠ some '{' ∧ r.tok.head? ≠ some '}' := by
  rcases h.1 with ⟨h1, -⟩ | ⟨x, hx, h1, h2, h3, h4, h5⟩
  · exact h1.head
  · simp [hx, h4, h5]

/-- A group that is not the one sought is passed over. -/
theorem G_skip_group {name n ws' bt tl : List Char} {body : Doc} (hname : IsIdent name) (hn : IsIdent n)
    (hne : n ≠ name) (hws' : White ws') (hb : Renders body bt)
    (htl : ∀ c ∈ tl, c ≠ '\n' ∧ c ≠ ',' ∧ c ≠ ';' ∧ c ≠ '{' ∧ c ≠ '}') (s : List Char) :
    G name (n ++ (ws' ++ '{' :: (bt ++ '}' :: (tl ++ '\n' :: s)))) = G name s := by
  have htl' : Flat tl := fun c hc => ⟨(htl c hc).2.2.2.1, (htl c hc).2.2.2.2, (htl c hc).1⟩
  have hgt : gettoken (n ++ (ws' ++ '{' :: (bt ++ '}' :: (tl ++ '\n' :: s)))) =
      .ok (some (n, ws' ++ '{' :: (bt ++ '}' :: (tl ++ '\n' :: s)))) := by
    cases hw : ws' with
    | nil => exact gettoken_ident hn '{' _ (by decide)
    | cons c l => exact gettoken_ident hn c _ (space_not_tok (hws' c (by simp [hw])) 1)
  rw [G_eq, groupRound, hgt]
  simp only [Run.bind_some_ok, if_neg hne]
  rw [brk, if_neg hn.head.1]
  simp only [Run.bind_some_ok]
  change Run.bind (SL _) _ = _
  rcases hws'.split with hbl | ⟨a, b, ha, hb', rfl⟩
  · have h1 : ∀ l : List Char, Blank l → ∀ u, SL (l ++ u) = SL u := by
      intro l hl u
      induction l with
      | nil => rfl
      | cons c l ih =>
        have := hl.flat c (by simp)
        rw [List.cons_append, SL_cons, if_neg this.1, if_neg this.2.2]
        exact ih fun x hx => hl x (by simp [hx])
    rw [h1 _ hbl, SL_cons, if_pos rfl, matchbracket_doc hb, Run.bind_some_ok, SL_flat htl',
      Run.bind_some_ok, G_eatwhite]
  · rw [List.append_assoc, List.cons_append, SL_flat ha.flat, Run.bind_some_ok, G_eatwhite, G_white _ hb']
    have hne' : ['{'] ≠ name := by rintro rfl; exact hname.head.1 rfl
    rw [G_eq, groupRound, gettoken_char _ (by decide) (by decide) (by decide)]
    simp only [Run.bind_some_ok, if_neg hne']
    rw [brk, if_pos (by rfl), matchbracket_doc hb, Run.bind_some_ok]
    change Run.bind (SL _) _ = _
    rw [SL_flat htl', Run.bind_some_ok, G_eatwhite]

theorem T_skip_group {key n ws' bt tl : List Char} {body : Doc} (hkey : IsIdent key) (hn : IsIdent n)
    (hne : n ≠ key) (hws' : White ws') (hb : Renders body bt)
    (htl : ∀ c ∈ tl, c ≠ '\n' ∧ c ≠ ',' ∧ c ≠ ';' ∧ c ≠ '{' ∧ c ≠ '}') (s : List Char) :
    T key (n ++ (ws' ++ '{' :: (bt ++ '}' :: (tl ++ '\n' :: s)))) = T key s := by
  have hgt : gettoken (n ++ (ws' ++ '{' :: (bt ++ '}' :: (tl ++ '\n' :: s)))) =
      .ok (some (n, ws' ++ '{' :: (bt ++ '}' :: (tl ++ '\n' :: s)))) := by
    cases hw : ws' with
    | nil => exact gettoken_ident hn '{' _ (by decide)
    | cons c l => exact gettoken_ident hn c _ (space_not_tok (hws' c (by simp [hw])) 1)
  rw [T_eq, tokenRound, hgt]
  simp only [Run.bind_some_ok, if_neg hne, if_neg hn.head.2]
  rw [brk, if_neg hn.head.1]
  simp only [Run.bind_some_ok]
  change Run.bind (SI _) _ = _
  have hsp : ∀ c, isSpace c = true → c ≠ ',' ∧ c ≠ ';' ∧ c ≠ '{' ∧ c ≠ '}' := by
    intro c hc
    refine ⟨?_, ?_, ?_, ?_⟩ <;> rintro rfl <;> exact absurd hc (by decide)
  rcases hws'.split with hbl | ⟨a, b, ha, hb', rfl⟩
  · have h1 : ∀ l : List Char, Blank l → ∀ u, SI (l ++ u) = SI u := by
      intro l hl u
      induction l with
      | nil => rfl
      | cons c l ih =>
        have h2 := hl c (by simp)
        have h3 := hsp c h2.1
        rw [List.cons_append, SI_cons, if_neg (by tauto), if_neg h3.2.2.1]
        exact ih fun x hx => hl x (by simp [hx])
    rw [h1 _ hbl, SI_cons, if_neg (by decide), if_pos rfl, matchbracket_doc hb, Run.bind_some_ok,
      SI_flat htl (.inl rfl), Run.bind_some_ok]
    exact T_eatwhite _ _
  · rw [List.append_assoc, List.cons_append, SI_flat (fun c hc => ⟨(ha c hc).2, (hsp c (ha c hc).1).1,
      (hsp c (ha c hc).1).2.1, (hsp c (ha c hc).1).2.2.1, (hsp c (ha c hc).1).2.2.2⟩) (.inl rfl), Run.bind_some_ok]
    change T key _ = _
    rw [T_eatwhite, T_white _ hb']
    have hne' : ['{'] ≠ key := by rintro rfl; exact hkey.head.1 rfl
    rw [T_eq, tokenRound, gettoken_char _ (by decide) (by decide) (by decide)]
    simp only [Run.bind_some_ok, if_neg hne']
    rw [if_neg (by decide), brk, if_pos (by rfl), matchbracket_doc hb, Run.bind_some_ok]
    change Run.bind (SI _) _ = _
    rw [SI_flat htl (.inl rfl), Run.bind_some_ok]
    exact T_eatwhite _ _

theorem RowsText.ne_nil {rs : List Row} {t : List Char} (h : RowsText rs t) : rs ≠ [] := by
  cases h <;> simp

/-- The first token of a line. -/
theorem RowsText.gettoken {rs : List Row} {t : List Char} (h : RowsText rs t) (s : List Char) :
    ∃ r u, rs.head? = some r ∧ r.Ok ∧ Flat u ∧ gettoken (t ++ '\n' :: s) = .ok (some (r.tok, u ++ '\n' :: s)) := by
  cases h with
  | @one r h =>
    refine ⟨r, r.rest, rfl, h, h.flat_rest, ?_⟩
    have := h.gettoken (ws := []) (by intro c hc; simp at hc) '\n' s (by decide)
    simpa using this
  | @cons r sep ws rs t h hsep hws ht =>
    refine ⟨r, r.rest ++ sep :: (ws ++ t), rfl, h, ?_, ?_⟩
    · refine h.flat_rest.append ?_
      intro c hc
      rcases List.mem_cons.1 hc with rfl | hc
      · rcases hsep with rfl | rfl <;> decide
      · exact (hws.flat.append ht.flat) c hc
    · have := h.gettoken (ws := []) (by intro c hc; simp at hc) sep (ws ++ t ++ '\n' :: s)
        (by rcases hsep with rfl | rfl <;> decide)
      simpa using this

theorem G_skip_line {name : List Char} {rs : List Row} {t : List Char} (h : RowsText rs t)
    (hne : rs.head?.map Row.tok ≠ some name) (s : List Char) : G name (t ++ '\n' :: s) = G name s := by
  obtain ⟨r, u, hr, hok, hu, hg⟩ := h.gettoken s
  rw [hr] at hne
  have hne' : r.tok ≠ name := by simpa using hne
  rw [G_eq, groupRound, hg]
  simp only [Run.bind_some_ok, if_neg hne']
  rw [brk, if_neg hok.head.1]
  simp only [Run.bind_some_ok]
  change Run.bind (SL _) _ = _
  rw [SL_flat hu, Run.bind_some_ok, G_eatwhite]

/-- `GotoGroup` from the place where a document begins, if the group is there. -/
theorem G_find {d : Doc} {t : List Char} (h : Renders d t) {name : List Char} (hname : IsIdent name)
    {body : Doc} (hf : d.findGroup name = some body) (s : List Char) :
    ∃ bt k, Renders body bt ∧ G name (t ++ s) = some (.ok (true, eatwhite (bt ++ '}' :: k))) := by
  induction h with
  | nil h => simp [Doc.findGroup] at hf
  | @line ws t rest rows next hws ht hn ih =>
    rw [Doc.findGroup] at hf
    split at hf
    · simp at hf
    · rename_i hne
      obtain ⟨bt, k, h1, h2⟩ := ih hf
      refine ⟨bt, k, h1, ?_⟩
      simp only [List.append_assoc, List.cons_append]
      rw [G_white _ hws, G_skip_line ht hne, h2]
  | @group ws n ws' bt tl rest b next hws hn hws' hb htl hnx ihb ih =>
    rw [Doc.findGroup] at hf
    simp only [List.append_assoc, List.cons_append]
    rw [G_white _ hws]
    split at hf
    · rename_i heq
      subst heq
      obtain rfl := Option.some.inj hf
      refine ⟨bt, tl ++ '\n' :: (rest ++ s), hb, ?_⟩
      have hgt : gettoken (n ++ (ws' ++ '{' :: (bt ++ '}' :: (tl ++ '\n' :: (rest ++ s))))) =
          .ok (some (n, ws' ++ '{' :: (bt ++ '}' :: (tl ++ '\n' :: (rest ++ s))))) := by
        cases hw : ws' with
        | nil => exact gettoken_ident hn '{' _ (by decide)
        | cons c l => exact gettoken_ident hn c _ (space_not_tok (hws' c (by simp [hw])) 1)
      rw [G_eq, groupRound, hgt]
      simp only [Run.bind_some_ok, if_true]
      rw [eatwhite_white hws', eatwhite_cons (by decide)]
      simp
    · rename_i hne
      obtain ⟨bt', k, h1, h2⟩ := ih hf
      refine ⟨bt', k, h1, ?_⟩
      rw [G_skip_group hname hn hne hws' hb htl, h2]

theorem G_lacks {d : Doc} {t : List Char} (h : Renders d t) {name : List Char} (hname : IsIdent name)
    (hf : d.Lacks name) (s : List Char) : G name (t ++ s) = G name s := by
  induction h with
  | nil h => exact G_white _ h s
  | @line ws t rest rows next hws ht hn ih =>
    simp only [List.append_assoc, List.cons_append]
    rw [G_white _ hws, G_skip_line ht hf.1, ih hf.2]
  | @group ws n ws' bt tl rest b next hws hn hws' hb htl hnx ihb ih =>
    simp only [List.append_assoc, List.cons_append]
    rw [G_white _ hws, G_skip_group hname hn hf.1 hws' hb htl, ih hf.2]

/-- What `GotoToken` does after the key. -/
def afterEq (s : List Char) : Option (List Char) :=
  match eatwhite s with
  | [] => none
  | c :: s' => if c ≠ '=' then none else some (eatwhite s')

theorem T_row {key : List Char} {r : Row} (h : r.Ok) {c : Char} (hc : c = '\n' ∨ c = ',' ∨ c = ';')
    (s : List Char) : T key (r.tok ++ (r.rest ++ c :: s)) =
      if r.tok = key then some (.ok (afterEq (r.rest ++ c :: s))) else T key s := by
  have hgt := h.gettoken (ws := []) (by intro c hc; simp at hc) c s
    (by rcases hc with rfl | rfl | rfl <;> decide)
  rw [List.nil_append] at hgt
  rw [T_eq, tokenRound, hgt]
  simp only [Run.bind_some_ok, if_neg h.head.2]
  split
  · rw [afterEq]
    cases eatwhite (r.rest ++ c :: s) with
    | nil => rfl
    | cons x l => dsimp only; split <;> rfl
  · rw [brk, if_neg h.head.1]
    simp only [Run.bind_some_ok]
    change Run.bind (SI _) _ = _
    rw [SI_flat h.2 hc, Run.bind_some_ok]
    exact T_eatwhite _ _

/-- `GotoToken` on a line. -/
theorem T_line {key : List Char} {rs : List Row} {t : List Char} (h : RowsText rs t) (s : List Char) :
    (findRow key rs = none → T key (t ++ '\n' :: s) = T key s) ∧
    ∀ r last, findRow key rs = some (r, last) → ∃ c u, r.Ok ∧ (last = true → c = '\n') ∧
      (last = false → c = ',' ∨ c = ';') ∧
      T key (t ++ '\n' :: s) = some (.ok (afterEq (r.rest ++ c :: u))) := by
  induction h with
  | @one r h =>
    have h1 := T_row (key := key) h (c := '\n') (.inl rfl) s
    rw [List.append_assoc]
    rw [h1]
    constructor
    · intro hf
      rw [findRow] at hf
      split at hf
      · simp at hf
      · rename_i hne; rw [if_neg hne]
    · intro r' last hf
      rw [findRow] at hf
      split at hf
      · rename_i heq
        simp at hf
        obtain ⟨rfl, rfl⟩ := hf
        exact ⟨'\n', s, h, fun _ => rfl, by simp, by rw [if_pos heq]⟩
      · simp [findRow] at hf
  | @cons r sep ws rs t h hsep hws ht ih =>
    have h1 := T_row (key := key) h (c := sep) (.inr hsep) (ws ++ (t ++ '\n' :: s))
    simp only [List.append_assoc, List.cons_append]
    rw [h1]
    constructor
    · intro hf
      rw [findRow] at hf
      split at hf
      · simp at hf
      · rename_i hne; rw [if_neg hne, T_white _ hws.white]; exact ih.1 hf
    · intro r' last hf
      rw [findRow] at hf
      split at hf
      · rename_i heq
        simp at hf
        obtain ⟨rfl, hl⟩ := hf
        have hl' : last = false := by
          rw [← hl]; cases rs with
          | nil => exact absurd rfl ht.ne_nil
          | cons a b => rfl
        exact ⟨sep, _, h, by simp [hl'], fun _ => hsep, by rw [if_pos heq]⟩
      · rename_i hne; rw [if_neg hne, T_white _ hws.white]; exact ih.2 r' last hf

theorem T_doc {d : Doc} {t : List Char} (h : Renders d t) {key : List Char} (hkey : IsIdent key)
    (s : List Char) :
    (d.lookup key = none → T key (t ++ '}' :: s) = some (.ok none)) ∧
    ∀ r last, d.lookup key = some (r, last) → ∃ c u, r.Ok ∧ (last = true → c = '\n') ∧
      (last = false → c = ',' ∨ c = ';') ∧
      T key (t ++ '}' :: s) = some (.ok (afterEq (r.rest ++ c :: u))) := by
  induction h with
  | nil h =>
    refine ⟨fun _ => ?_, fun r last hl => by simp [Doc.lookup] at hl⟩
    rw [T_white _ h, T_eq, tokenRound, gettoken_char _ (by decide) (by decide) (by decide)]
    rfl
  | @line ws t rest rows next hws ht hn ih =>
    simp only [List.append_assoc, List.cons_append]
    rw [T_white _ hws]
    have hT := T_line (key := key) ht (rest ++ '}' :: s)
    rw [Doc.lookup]
    cases hf : findRow key rows with
    | none =>
      rw [hT.1 hf]; exact ih
    | some p =>
      obtain ⟨r, last⟩ := p
      refine ⟨by simp, ?_⟩
      intro r' last' hl
      simp at hl
      obtain ⟨rfl, rfl⟩ := hl
      exact hT.2 r last hf
  | @group ws n ws' bt tl rest b next hws hn hws' hb htl hnx ihb ih =>
    simp only [List.append_assoc, List.cons_append]
    rw [T_white _ hws, Doc.lookup]
    by_cases hne : n = key
    · subst hne
      simp only [if_true]
      refine ⟨fun _ => ?_, by simp⟩
      have hgt : gettoken (n ++ (ws' ++ '{' :: (bt ++ '}' :: (tl ++ '\n' :: (rest ++ '}' :: s))))) =
          .ok (some (n, ws' ++ '{' :: (bt ++ '}' :: (tl ++ '\n' :: (rest ++ '}' :: s))))) := by
        cases hw : ws' with
        | nil => exact gettoken_ident hn '{' _ (by decide)
        | cons c l => exact gettoken_ident hn c _ (space_not_tok (hws' c (by simp [hw])) 1)
      rw [T_eq, tokenRound, hgt]
      simp only [Run.bind_some_ok, if_true, if_neg hn.head.2]
      rw [eatwhite_white hws', eatwhite_cons (by decide)]
      simp
    · rw [if_neg hne, T_skip_group hkey hn hne hws' hb htl]
      exact ih

theorem gotoGroup_root (text n : List Char) : gotoGroup (some text) (.root n) = G n text := by
  rw [gotoGroup, groupLoop_fuel n _ _ ((eatwhite text).length + 1)
    (by have := eatwhite_length text; omega) (by omega)]
  exact G_eatwhite n text

theorem gotoGroup_sub (f : File) (p : Group) (n : List Char) :
    gotoGroup f (.sub p n) = Run.bind (gotoGroup f p) fun r => G n r.2 := by
  rw [gotoGroup]
  congr 1
  funext r
  rw [groupLoop_fuel n _ _ ((eatwhite r.2).length + 1)
    (by have := eatwhite_length r.2; omega) (by omega)]
  exact G_eatwhite n r.2

/-- The names of the group and of its parents. -/
def Group.Names : Group → Prop
  | .root n => IsIdent n
  | .sub p n => p.Names ∧ IsIdent n

theorem gotoGroup_at {top : Doc} {text : List Char} (h : Renders top text) {g : Group} (hg : g.Names)
    {body : Doc} (hat : g.At top body) :
    ∃ bt k, Renders body bt ∧ gotoGroup (some text) g = some (.ok (true, eatwhite (bt ++ '}' :: k))) := by
  induction g generalizing body with
  | root n =>
    obtain ⟨bt, k, h1, h2⟩ := G_find h hg hat []
    rw [List.append_nil] at h2
    exact ⟨bt, k, h1, by rw [gotoGroup_root, h2]⟩
  | sub p n ih =>
    obtain ⟨pb, hp, hf⟩ := hat
    obtain ⟨bt, k, h1, h2⟩ := ih hg.1 hp
    obtain ⟨bt', k', h3, h4⟩ := G_find h1 hg.2 hf ('}' :: k)
    refine ⟨bt', k', h3, ?_⟩
    rw [gotoGroup_sub, h2, Run.bind_some_ok]
    rw [G_eatwhite, h4]

/-- `GotoToken` in a group that the file has. -/
theorem gotoToken_at {top : Doc} {text : List Char} (h : Renders top text) {g : Group} (hg : g.Names)
    {body : Doc} (hat : g.At top body) {key : List Char} (hkey : IsIdent key) :
    (body.lookup key = none → gotoToken (some text) g key = some (.ok none)) ∧
    ∀ r last, body.lookup key = some (r, last) → ∃ c u, r.Ok ∧ (last = true → c = '\n') ∧
      (last = false → c = ',' ∨ c = ';') ∧
      gotoToken (some text) g key = some (.ok (afterEq (r.rest ++ c :: u))) := by
  obtain ⟨bt, k, h1, h2⟩ := gotoGroup_at h hg hat
  have h3 : gotoToken (some text) g key = T key (bt ++ '}' :: k) := by
    rw [gotoToken, h2, Run.bind_some_ok, if_pos rfl]
    exact T_eatwhite _ _
  rw [h3]
  exact T_doc h1 hkey k

end Verif.Input
