import Verif.Base

/-!
# Model of `SmallString`/`Tag` and `TagSet`

Sources: `/repo/itensor/smallstring.h`, `/repo/itensor/tagset.h`, `/repo/itensor/tagset.cc`,
`/repo/itensor/global.h` (`MAX_TAGS` = 4).
-/

namespace Verif.TagSet

/-- `SmallString` (smallstring.h:40-79): 7 characters in an 8-byte array.
Simplification: the eighth byte, which every API constructor leaves `'\0'`
(smallstring.h:186-211), is not stored. -/
structure Tag where
  c0 : UInt8
  c1 : UInt8
  c2 : UInt8
  c3 : UInt8
  c4 : UInt8
  c5 : UInt8
  c6 : UInt8
  deriving DecidableEq, Repr

namespace Tag

/-- Default constructor `SmallString()` (smallstring.h:186-190): all NUL. -/
def empty : Tag := ⟨0, 0, 0, 0, 0, 0, 0⟩

/-- `operator const int64_t` (smallstring.h:70-71): reinterpret the 8 bytes as a little-endian
64-bit integer; the top byte is NUL so the value is non-negative and equals this `Nat`. -/
def key (t : Tag) : Nat :=
  t.c0.toNat + 256 * (t.c1.toNat + 256 * (t.c2.toNat + 256 * (t.c3.toNat + 256 *
    (t.c4.toNat + 256 * (t.c5.toNat + 256 * t.c6.toNat)))))

/-- `operator<` (smallstring.h:105-109). -/
def lt (a b : Tag) : Bool := a.key < b.key

/-- The characters in order. -/
def chars (t : Tag) : List UInt8 := [t.c0, t.c1, t.c2, t.c3, t.c4, t.c5, t.c6]

/-- `isdigit` on ASCII. -/
def isDigit (c : UInt8) : Bool := 48 ≤ c.toNat && c.toNat ≤ 57

/-- `strtol(s,NULL,10)` on a string of digits followed by NUL: stops at the first non-digit. -/
def strtolAux (acc : Nat) : List UInt8 → Nat
  | [] => acc
  | c :: cs => if isDigit c then strtolAux (acc * 10 + (c.toNat - 48)) cs else acc

/-- `toInt` (smallstring.h:81-89): `-1` unless the first character is a digit and every other one
is a digit or NUL. -/
def toInt (t : Tag) : Int :=
  if !isDigit t.c0 then -1
  else if (t.chars.drop 1).any (fun c => !isDigit c && c != 0) then -1
  else (strtolAux 0 t.chars : Nat)

/-- `SmallString(const char*)` (smallstring.h:192-211): copy at most 7 characters, rest NUL. -/
def ofBytes (l : List UInt8) : Tag :=
  let g (i : Nat) : UInt8 := l.getD i 0
  ⟨g 0, g 1, g 2, g 3, g 4, g 5, g 6⟩

/-- ASCII literal, for examples. -/
def ofString (s : String) : Tag := ofBytes (s.toUTF8.toList)

end Tag

/-- `MAX_TAGS` (global.h). -/
abbrev maxTags : Nat := 4

/-- `class TagSet` (tagset.h:32-41): array of `MAX_TAGS` tags, prime level (`-1` = none), size.
The array is a list, whose length is `maxTags` in every state built by the API. -/
structure TagSet where
  tags : List Tag
  plev : Int
  size : Nat
  deriving DecidableEq, Repr

namespace TagSet

/-- `TagSet()` (tagset.h:38-43). -/
def default : TagSet := ⟨List.replicate maxTags Tag.empty, -1, 0⟩

/-- The tags a user can observe: `ts[0..size)`. -/
def live (ts : TagSet) : List Tag := ts.tags.take ts.size

/-- `tagPosition` (tagset.cc:90-98); `none` is the `-1` result. -/
def tagPosition (ts : TagSet) (t : Tag) : Option Nat := ts.live.findIdx? (· == t)

/-- `setPrime` (tagset.h:63-64). -/
def setPrime (ts : TagSet) (p : Int) : TagSet := { ts with plev := p }

/-- `prime` (tagset.h:66-67). -/
def prime (ts : TagSet) (n : Int) : TagSet := { ts with plev := ts.plev + n }

/-- `hasTags` (tagset.cc:100-107). -/
def hasTags (T ts : TagSet) : Bool :=
  if ts.plev ≥ 0 && T.plev != ts.plev then false
  else ts.live.all fun t => (T.tagPosition t).isSome

/-- The shifting loop of `addTag` (tagset.cc:131-137): starting at slot `i`, move larger tags up
until `t > tags_[i-1]`, then store `t`. -/
def addLoop (t : Tag) : Nat → List Tag → List Tag
  | 0, a => a.set 0 t
  | i + 1, a =>
    let x := a.getD i Tag.empty
    if x.lt t then a.set (i + 1) t else addLoop t i (a.set (i + 1) x)

/-- `addTag` (tagset.cc:117-141). -/
def addTag (ts : TagSet) (t : Tag) : Res TagSet :=
  if t.toInt ≥ 0 then
    if ts.plev > 0 then .throw else .ok { ts with plev := t.toInt }
  else if ts.size = maxTags then .throw
  else if (ts.tagPosition t).isNone && t != Tag.empty then
    .ok { ts with tags := addLoop t ts.size ts.tags, size := ts.size + 1 }
  else .ok ts

/-- `addTags` (tagset.cc:143-149). -/
def addTags (T ts : TagSet) : Res TagSet :=
  if ts.plev ≥ 0 then .throw else Res.foldM addTag T ts.live

/-- The shifting loop of `removeTag` (tagset.cc:164-165): `n` further iterations from slot `i`.
Reading slot `MAX_TAGS` is out of bounds of the `std::array`. -/
def removeLoop : Nat → Nat → List Tag → Res (List Tag)
  | 0, _, a => .ok a
  | n + 1, i, a =>
    match a[i + 1]? with
    | none => .ub
    | some x => removeLoop n (i + 1) (a.set i x)

/-- `removeTag` (tagset.cc:158-168). -/
def removeTag (ts : TagSet) (t : Tag) : Res TagSet :=
  match ts.tagPosition t with
  | none => .ok ts
  | some loc =>
    (removeLoop (ts.size - loc) loc ts.tags).bind fun a =>
      .ok { ts with tags := a, size := ts.size - 1 }

/-- `removeTags` (tagset.cc:170-176). -/
def removeTags (T ts : TagSet) : Res TagSet :=
  if ts.plev ≥ 0 then .throw else Res.foldM removeTag T ts.live

/-- `setTags` (tagset.cc:178-187): copies `max(size_,ts.size())` slots. -/
def setTags (T ts : TagSet) : TagSet :=
  let m := max T.size ts.size
  { tags := ts.tags.take m ++ T.tags.drop m
    plev := if ts.plev < 0 then 0 else ts.plev
    size := ts.size }

/-- `noTags` (tagset.cc:189-194): only the size and prime level are reset; slots keep their
contents. -/
def noTags (T : TagSet) : TagSet := { T with plev := 0, size := 0 }

/-- `replaceTags` (tagset.cc:203-219). -/
def replaceTags (T rem add : TagSet) : Res TagSet :=
  if (add.plev ≥ 0 ∧ rem.plev < 0) ∨ (add.plev < 0 ∧ rem.plev ≥ 0) then .throw
  else if !T.hasTags rem then .ok T
  else
    let T1 := if rem.plev ≥ 0 then { T with plev := add.plev } else T
    (Res.foldM removeTag T1 rem.live).bind fun T2 => Res.foldM addTag T2 add.live

/-- `operator==` (tagset.cc:43-53). -/
def eq (a b : TagSet) : Bool :=
  if a.plev != b.plev then false
  else if a.size != b.size then false
  else a.live == b.live

/-- The tokenizer of `TagSet(const char*)` (tagset.cc:61-88): `cur` is the characters collected
for the current tag (so `j = cur.length`).  `t.set(j,c)` with `j ≥ 8` writes past the 8-byte
array; `j = 7` overwrites the terminating NUL.  Both are reported as `ub` (release build; the
DEBUG build throws). -/
def parseAux (ts : TagSet) (cur : List UInt8) : List UInt8 → Res TagSet
  | [] => ts.addTag (Tag.ofBytes cur)
  | c :: cs =>
    if c = 44 then (ts.addTag (Tag.ofBytes cur)).bind fun ts' => parseAux ts' [] cs
    else if c = 32 then parseAux ts cur cs
    else if cur.length ≥ 7 then .ub
    else parseAux ts (cur ++ [c]) cs

/-- `TagSet(const char*)` (tagset.cc:61-88). -/
def parse (s : List UInt8) : Res TagSet := parseAux default [] s

/-- Binary `write` (tagset.cc:264-270): all `MAX_TAGS` slots, 7 characters each
(smallstring.h:172-177), then the prime level.  The `int` is kept as a value: the byte encoding
of plain integers is modelled in `Verif.Stream`. -/
def write (ts : TagSet) : List (List UInt8) × Int :=
  (ts.tags.map Tag.chars, ts.plev)

/-- Binary `read` (tagset.cc:272-285) into an existing tag set. -/
def read (ts : TagSet) (w : List (List UInt8) × Int) : Res TagSet :=
  (Res.foldM addTag ts (w.1.map Tag.ofBytes)).bind fun ts' => .ok (ts'.setPrime w.2)

/-- `tagString` (tagset.cc:221-231). -/
def nameChars (t : Tag) : List UInt8 := t.chars.takeWhile (· != 0)

def tagString (ts : TagSet) : List UInt8 :=
  match ts.live with
  | [] => []
  | t :: rest => nameChars t ++ rest.flatMap fun u => 44 :: nameChars u

/-- HDF5 `h5_write`/`h5_read` (tagset.cc:287-312): the tag string and the prime level. -/
def h5write (ts : TagSet) : List UInt8 × Int := (ts.tagString, ts.plev)
def h5read (w : List UInt8 × Int) : Res TagSet := (parse w.1).bind fun ts => .ok (ts.setPrime w.2)

/-- Any tag-changing call of the API. -/
inductive Op where
  | addTag (t : Tag)
  | removeTag (t : Tag)
  | addTags (ts : TagSet)
  | removeTags (ts : TagSet)
  | setTags (ts : TagSet)
  | noTags
  | replaceTags (rem add : TagSet)
  | setPrime (p : Int)
  | prime (n : Int)

def step (T : TagSet) : Op → Res TagSet
  | .addTag t => T.addTag t
  | .removeTag t => T.removeTag t
  | .addTags ts => T.addTags ts
  | .removeTags ts => T.removeTags ts
  | .setTags ts => .ok (T.setTags ts)
  | .noTags => .ok T.noTags
  | .replaceTags r a => T.replaceTags r a
  | .setPrime p => .ok (T.setPrime p)
  | .prime n => .ok (T.prime n)

/-- A program of calls. -/
def run (T : TagSet) (ops : List Op) : Res TagSet := Res.foldM step T ops

end TagSet
end Verif.TagSet
