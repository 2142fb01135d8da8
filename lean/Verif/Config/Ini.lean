import Mathlib.Data.List.DropRight

/-!
# Model of `core/src/utils/config/inih/ini.cpp`

With the options of `ini.h` L96-162: multi-line entries, byte order mark, inline comments started by
`;`, line buffer of 200 characters on the stack without reallocation, no stop on error. Strings are
lists of characters (bytes in the code); writing `'\0'` into the line buffer is taking a prefix.
-/

namespace Verif.Config

/-- A string. -/
abbrev Str := List Char

/-- C `isspace`: blank, `\t`, `\n`, `\v`, `\f`, `\r`. -/
def isSpace (c : Char) : Bool := c == ' ' || (9 ≤ c.toNat && c.toNat ≤ 13)

/-- `ini.cpp` L48-54. -/
def rstrip (s : Str) : Str := s.rdropWhile isSpace

/-- L57-62. -/
def lskip (s : Str) : Str := s.dropWhile isSpace

/-- L67-82, `find_chars_or_comment` with the value of `was_space`: the string is split where the
pointer stops. -/
def findCharsOrComment (chars : Str) : Bool → Str → Str × Str
  | _, [] => ([], [])
  | wasSpace, c :: s =>
    if c ∈ chars ∨ (wasSpace = true ∧ c = ';') then ([], c :: s)
    else
      let r := findCharsOrComment chars (isSpace c) s
      (c :: r.1, r.2)

/-- L86-94. -/
def strncpy0 (s : Str) (size : ℕ) : Str := s.take (size - 1)

/-- One call of the handler: section, name, value. -/
structure Event where
  sec : Str
  name : Str
  value : Str
deriving DecidableEq

/-- Variables of `ini_parse_stream` and the calls of the handler so far. -/
structure ParseState where
  sec : Str
  prevName : Str
  error : ℕ
  events : List Event
deriving DecidableEq

/-- L112-120. -/
def ParseState.init : ParseState := ⟨[], [], 0, []⟩

/-- L161-163: the byte order mark. -/
def bom : Str := [Char.ofNat 0xEF, Char.ofNat 0xBB, Char.ofNat 0xBF]

/-- `if (!error) error = lineno`. -/
def ParseState.fail (st : ParseState) (lineno : ℕ) : ParseState :=
  { st with error := if st.error = 0 then lineno else st.error }

/-- Call of the handler, which returns 1 (`ConfigMap.h` L397). -/
def ParseState.call (st : ParseState) (name value : Str) : ParseState :=
  { st with events := st.events ++ [⟨st.sec, name, value⟩] }

/-- `ini.cpp` L159-234: one line. -/
def parseLine (lineno : ℕ) (line : Str) (st : ParseState) : ParseState :=
  let hasBom := lineno = 1 ∧ bom <+: line
  let stripped := rstrip (if hasBom then line.drop 3 else line)
  match lskip stripped with
  | [] => st -- L169: `strchr` finds the terminator
  | c :: rest =>
    if c = ';' ∨ c = '#' then st
    else if st.prevName ≠ [] ∧ (hasBom ∨ lskip stripped ≠ stripped) then -- L173
      st.call st.prevName (rstrip (findCharsOrComment [] false (c :: rest)).1)
    else if c = '[' then -- L186
      match findCharsOrComment [']'] false rest with
      | (s, ']' :: _) => { st with sec := strncpy0 s 50, prevName := [] }
      | _ => st.fail lineno
    else -- L203
      match findCharsOrComment ['=', ':'] false (c :: rest) with
      | (n, e :: v) =>
        if e = '=' ∨ e = ':' then
          { st with prevName := strncpy0 (rstrip n) 50 }.call (rstrip n)
            (rstrip (lskip (findCharsOrComment [] false v).1))
        else st.fail lineno
      | _ => st.fail lineno

/-- `ini.cpp` L271-294, `ini_reader_string`: at most `n` characters, up to and including a line feed. -/
def readLine : ℕ → Str → Str × Str
  | 0, s => ([], s)
  | _ + 1, [] => ([], [])
  | n + 1, c :: s =>
    if c = '\n' then ([c], s)
    else
      let r := readLine n s
      (c :: r.1, r.2)

/-- L136-240: the loop over lines. `none`: `fuel` too small. -/
def parseLoop : ℕ → ℕ → Str → ParseState → Option ParseState
  | _, _, [], st => some st
  | 0, _, _ :: _, _ => none
  | fuel + 1, lineno, c :: s, st =>
    let r := readLine 199 (c :: s)
    parseLoop fuel (lineno + 1) r.2 (parseLine (lineno + 1) r.1 st)

/-- L297-304, `ini_parse_string`. The string ends at the first `'\0'`. -/
def iniParseString (text : Str) : Option ParseState :=
  let s := text.takeWhile (· ≠ '\x00')
  parseLoop s.length 0 s .init

end Verif.Config
