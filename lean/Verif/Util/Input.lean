import Verif.Tensor.Contract

/-!
# Input files (itensor/util/input.h, itensor/util/input.cc)

`InputGroup` reads named values from a text file of nested groups.  A file stream is its unread
characters.  Every failing read of the code happens at the end of the file, and every read after
it fails again, so a failed stream is the empty one.  The file is opened anew by every call
(`InputFile::open`), so nothing is carried from one call to the next.

Simplifications: characters are those of the C locale; `>>` of a `Real` (`GetReal`) and of a `long`
is not modelled; the messages printed are left out.
-/

namespace Verif.Input

open Verif Verif.Tensor

/-- `isspace` in the C locale. -/
def isSpace (c : Char) : Bool :=
  c == ' ' || c == '\t' || c == '\n' || c == '\x0b' || c == '\x0c' || c == '\r'

/-- `isalpha(ch) || ch == '_' || (i != 0 && isdigit(ch))` (input.cc:100). -/
def isTok (i : Nat) (c : Char) : Bool :=
  c.isAlpha || c == '_' || (i != 0 && c.isDigit)

/-- `eatwhite` (input.cc:62-73). -/
def eatwhite (s : List Char) : List Char := s.dropWhile isSpace

/-- The loop of `matchbracket` (input.cc:75-91); `nest` is the variable of that name.  `is >> c`
skips white space, which is neither bracket. -/
def matchLoop : Nat → List Char → Res (List Char)
  | _, [] => .throw
  | nest, c :: s =>
    if c = '{' then matchLoop (nest + 1) s
    else if c = '}' then (if nest = 1 then .ok s else matchLoop (nest - 1) s)
    else matchLoop nest s

/-- `matchbracket` (input.cc:75-91). -/
def matchbracket (s : List Char) : Res (List Char) := matchLoop 1 s

/-- The loop of `gettoken` (input.cc:95-117) from its round `i` on; `acc` is `c[0..i)`.  After 512 letters
the buffer is full and has no terminator, `s = c` reads past its end.  A single character that is NUL
makes an empty string. -/
def tokLoop : Nat → List Char → List Char → Res (Option (List Char × List Char))
  | i, acc, s =>
    if i = 512 then .ub
    else match s with
    | [] => .ok none
    | ch :: s' =>
      if isTok i ch then tokLoop (i + 1) (acc ++ [ch]) s'
      else if i = 0 then .ok (some (if ch = '\x00' then [] else [ch], s'))
      else .ok (some (acc, ch :: s'))

/-- `gettoken` (input.cc:93-120): `none` if it returns 0. -/
def gettoken (s : List Char) : Res (Option (List Char × List Char)) := tokLoop 0 [] (eatwhite s)

/-- The inner loop of `GotoGroup` (input.cc:197-209).  The result of `get` is not looked at: at the end of
the file the uninitialized `c` is read. -/
def skipLine : Nat → List Char → Run (List Char)
  | 0, _ => none
  | _ + 1, [] => some .ub
  | fuel + 1, c :: s =>
    if c = '{' then Run.bind (some (matchbracket s)) fun s' => skipLine fuel s'
    else if c = '\n' then some (.ok (eatwhite s))
    else skipLine fuel s

/-- The outer loop of `GotoGroup` (input.cc:174-211): whether the group was found, and the stream. -/
def groupLoop (name : List Char) : Nat → List Char → Run (Bool × List Char)
  | 0, _ => none
  | fuel + 1, s =>
    Run.bind (some (gettoken s)) fun t =>
    match t with
    | none => some (.ok (false, []))
    | some (t, s) =>
      if t = name then
        match eatwhite s with
        | [] => some .ub
        | c :: s' => if c ≠ '{' then some .throw else some (.ok (true, eatwhite s'))
      else
        Run.bind (if t.head? = some '{' then some (matchbracket s) else some (.ok s)) fun s =>
        Run.bind (skipLine (s.length + 1) s) fun s => groupLoop name fuel s

/-- `InputGroup` (input.h:82-151): the name and the parent. -/
inductive Group where
  | root (name : List Char)
  | sub (parent : Group) (name : List Char)

/-- A file: its text, `none` if it cannot be opened. -/
abbrev File := Option (List Char)

/-- `GotoGroup` (input.cc:165-212), with `InputFile::open` (input.cc:30-37).  What the call for the parent
returns is not looked at. -/
def gotoGroup (f : File) : Group → Run (Bool × List Char)
  | .root name =>
    match f with
    | none => some .throw
    | some text => groupLoop name (text.length + 1) (eatwhite text)
  | .sub parent name => Run.bind (gotoGroup f parent) fun r =>
      groupLoop name (r.2.length + 1) (eatwhite r.2)

/-- The inner loop of `GotoToken` (input.cc:243-254): `none` if it makes the function return 0. -/
def skipItem : Nat → List Char → Run (Option (List Char))
  | 0, _ => none
  | _ + 1, [] => some (.ok none)
  | fuel + 1, c :: s =>
    if c = '\n' ∨ c = ',' ∨ c = ';' then some (.ok (some (eatwhite s)))
    else if c = '{' then Run.bind (some (matchbracket s)) fun s' => skipItem fuel s'
    else skipItem fuel s

/-- The outer loop of `GotoToken` (input.cc:218-255): the stream after `=`, `none` if it returns 0. -/
def tokenLoop (key : List Char) : Nat → List Char → Run (Option (List Char))
  | 0, _ => none
  | fuel + 1, s =>
    Run.bind (some (gettoken s)) fun t =>
    match t with
    | none => some (.ok none)
    | some (t, s) =>
      if t.head? = some '}' then some (.ok none)
      else if t = key then
        match eatwhite s with
        | [] => some (.ok none)
        | c :: s' => if c ≠ '=' then some (.ok none) else some (.ok (some (eatwhite s')))
      else
        Run.bind (if t.head? = some '{' then some (matchbracket s) else some (.ok s)) fun s =>
        Run.bind (skipItem (s.length + 1) s) fun r =>
        match r with
        | none => some (.ok none)
        | some s => tokenLoop key fuel s

/-- `GotoToken` (input.cc:214-256). -/
def gotoToken (f : File) (g : Group) (key : List Char) : Run (Option (List Char)) :=
  Run.bind (gotoGroup f g) fun r =>
    if r.1 then tokenLoop key (r.2.length + 1) r.2 else some (.ok none)

/-- `file() >> res` for a string: skip white space, then up to the next white space. -/
def readWord (s : List Char) : Option (List Char) :=
  let w := (eatwhite s).takeWhile fun c => !isSpace c
  if w = [] then none else some w

/-- The number that a list of digits denotes. -/
def digits (ds : List Char) : Nat := ds.foldl (fun a c => 10 * a + (c.toNat - '0'.toNat)) 0

/-- `file() >> res` for an `int`: an optional sign and the longest run of digits; it fails without a digit
and outside the range of `int`. -/
def readInt (s : List Char) : Option Int :=
  let s := eatwhite s
  let neg := s.head? == some '-'
  let s := if s.head? = some '-' ∨ s.head? = some '+' then s.tail else s
  let ds := s.takeWhile Char.isDigit
  let n : Int := if neg then -(digits ds : Int) else digits ds
  if ds = [] then none
  else if -2147483648 ≤ n ∧ n ≤ 2147483647 then some n else none

/-- `GetString` (input.cc:306-319): `none` if it returns 0. -/
def getStringO (f : File) (g : Group) (key : List Char) : Run (Option (List Char)) :=
  Run.bind (gotoToken f g key) fun r => some (.ok (r.bind readWord))

/-- `GetInt` (input.cc:258-271). -/
def getIntO (f : File) (g : Group) (key : List Char) : Run (Option Int) :=
  Run.bind (gotoToken f g key) fun r => some (.ok (r.bind readInt))

/-- The two comparisons of `GetYesNo` (input.cc:335-347). -/
def yesNo (w : List Char) : Option Bool :=
  let w := w.map Char.toLower
  if w = "yes".toList ∨ w = "y".toList ∨ w = "true".toList then some true
  else if w = "no".toList ∨ w = "n".toList ∨ w = "false".toList then some false
  else none

/-- `GetYesNo` (input.cc:323-360). -/
def getYesNoO (f : File) (g : Group) (key : List Char) : Run (Option Bool) :=
  Run.bind (gotoToken f g key) fun r => some (.ok ((r.bind readWord).bind yesNo))

/-- `getX(s,def)` (input.cc:370-404). -/
def orDefault {α} (x : Run (Option α)) (d : α) : Run α :=
  Run.bind x fun r => some (.ok (r.getD d))

/-- `getX(s)` and `GetXM` (input.cc:406-469): throws without a value. -/
def mandatory {α} (x : Run (Option α)) : Run α :=
  Run.bind x fun r => some (match r with | some a => .ok a | none => .throw)

end Verif.Input
