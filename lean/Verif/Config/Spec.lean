import Verif.Config.Map

/-!
# Specifications for configuration files (C31, C32)
-/

namespace Verif.Config

/-- No `;` after white space (that starts a comment). -/
def NoComment (s : Str) : Prop := ∀ a b x, s = a ++ x :: ';' :: b → isSpace x = false

/-- No line feed and no zero in the string. -/
def OneLine (s : Str) : Prop := '\n' ∉ s ∧ '\x00' ∉ s

/-- Neither begins nor ends with white space. -/
def Trimmed (s : Str) : Prop := (∀ c, s.head? = some c → isSpace c = false) ∧
  ∀ c, s.getLast? = some c → isSpace c = false

/-- Section names that can be written. -/
structure GoodSection (s : Str) : Prop where
  line : OneLine s
  comment : NoComment s
  close : ']' ∉ s
  short : s.length ≤ 49

/-- Variable names that can be written. -/
structure GoodName (s : Str) : Prop where
  line : OneLine s
  comment : NoComment s
  trimmed : Trimmed s
  nonempty : s ≠ []
  eq : '=' ∉ s
  colon : ':' ∉ s
  first : ∀ c, s.head? = some c → c ≠ ';' ∧ c ≠ '#' ∧ c ≠ '['

/-- Values that can be written. -/
structure GoodValue (s : Str) : Prop where
  line : OneLine s
  comment : NoComment s
  trimmed : Trimmed s
  first : ∀ c, s.head? = some c → c ≠ ';'

/-- Number of characters needed to write a variable. -/
def width (name : Str) (v : Val) : ℕ :=
  max name.length 20 + 3 + max v.value.length 20 + (if v.used then 0 else 9) +
    (if v.fromFile then 0 else 10)

/-- Configurations that can be written: everything has the right form and lines are short enough for
the buffer of the parser. -/
def Writable (m : Values) : Prop :=
  ∀ s ∈ m, GoodSection s.1 ∧ ∀ v ∈ s.2, GoodName v.1 ∧ GoodValue v.2.value ∧ width v.1 v.2 ≤ 198

/-- Keys are distinct and in order, in lower case, and there is no empty section. -/
structure Normal (m : Values) : Prop where
  sorted : m.Pairwise fun a b => a.1 < b.1
  lowSec : ∀ s ∈ m, lower s.1 = s.1
  nonempty : ∀ s ∈ m, s.2 ≠ []
  names : ∀ s ∈ m, s.2.Pairwise fun a b => a.1 < b.1
  lowName : ∀ s ∈ m, ∀ v ∈ s.2, lower v.1 = v.1

/-- The same values, all from a file and not used. -/
def asRead (m : Values) : Values := m.map fun s => (s.1, s.2.map fun v => (v.1, ⟨v.2.value, true, false⟩))

/-- A call of `getValue`, with or without default. -/
structure Lookup where
  T : Type
  dec : DecidableEq T
  codec : Codec T
  sec : Str
  name : Str
  default : Option T

/-- Two keys are the same up to case. -/
def SameKey (s n s' n' : Str) : Prop := lower s = lower s' ∧ lower n = lower n'

instance (s n s' n' : Str) : Decidable (SameKey s n s' n') :=
  inferInstanceAs (Decidable (_ ∧ _))

/-- The value last given in the file for a key. -/
def lastGiven (E : List Event) (s n : Str) : Option Str :=
  (E.reverse.find? fun e => SameKey e.sec e.name s n).map (·.value)

/-- The text of the default of the first lookup of a key. -/
def firstDefault (ls : List Lookup) (s n : Str) : Option Str :=
  (ls.find? fun l => SameKey l.sec l.name s n).bind fun l => l.default.bind l.codec.toStr

/-- The text a lookup must use: from the file, otherwise the first default. -/
def textOf (E : List Event) (ls : List Lookup) (s n : Str) : Option Str :=
  (lastGiven E s n).or (firstDefault ls s n)

end Verif.Config
