import Verif.Config.Ini
import Mathlib.Order.Defs.LinearOrder
import Mathlib.Data.List.Lex
import Mathlib.Data.Char

/-!
# Model of `core/src/utils/config/ConfigMap.h`

A `std::map` is the list of its entries in order. `none`: exception.
-/

namespace Verif.Config

/-- `m[k] = f(m[k])` on a `std::map`; `f none` when the key is new. -/
def alter {β : Type} (k : Str) (f : Option β → β) : List (Str × β) → List (Str × β)
  | [] => [(k, f none)]
  | (k', v) :: m =>
    if k = k' then (k, f (some v)) :: m
    else if k < k' then (k, f none) :: (k', v) :: m
    else (k', v) :: alter k f m

/-- `m.find(k)`. -/
def get? {β : Type} (k : Str) (m : List (Str × β)) : Option β := (m.find? fun e => e.1 = k).map (·.2)

/-- `ConfigMap.h` L380-384, `value_container`. -/
structure Val where
  value : Str
  fromFile : Bool
  used : Bool
deriving DecidableEq

/-- L388: `_values`. -/
abbrev Values := List (Str × List (Str × Val))

/-- L400-404: `::tolower` on each character. -/
def lower (s : Str) : Str := s.map Char.toLower

/-- `_values[section][name] = f(...)`; `f none` when there was no value. -/
def Values.alter (m : Values) (sec name : Str) (f : Option Val → Val) : Values :=
  Config.alter sec (fun o => Config.alter name f (o.getD [])) m

/-- Value of an entry. -/
def Values.get? (m : Values) (sec name : Str) : Option Val :=
  (Config.get? sec m).bind (Config.get? name)

/-- L389-398, `valueHandler`. -/
def valueHandler (m : Values) (e : Event) : Values :=
  m.alter (lower e.sec) (lower e.name) fun _ => ⟨e.value, true, false⟩

/-- Conversion between a type and text (L24-178): `toStr` is `Impl::to_string` and `ofStr`
`Impl::convert_to`. `none`: exception. -/
structure Codec (T : Type) where
  toStr : T → Option Str
  ofStr : Str → Option T

/-- L335-340, `hasValue`. -/
def hasValue (m : Values) (sec name : Str) : Bool := (m.get? (lower sec) (lower name)).isSome

/-- L306-307: `val.used = true`, on a new entry if there is none. -/
def markUsed : Option Val → Val
  | some v => { v with used := true }
  | none => ⟨[], false, true⟩

/-- L285: `.value = s`, on a new entry if there is none. -/
def setText (s : Str) : Option Val → Val
  | some v => { v with value := s }
  | none => ⟨s, false, false⟩

/-- L298-333, `getValue` without default. The printed line is not modelled. -/
def getValue {T : Type} (c : Codec T) (m : Values) (sec name : Str) : Option (T × Values) :=
  if hasValue m sec name then
    let m' := m.alter (lower sec) (lower name) markUsed
    (m'.get? (lower sec) (lower name)).bind fun v => (c.ofStr v.value).map fun t => (t, m')
  else none

/-- L277-293, `getValue` with default. -/
def getValueDefault {T : Type} [DecidableEq T] (c : Codec T) (m : Values) (sec name : Str)
    (default : T) : Option (T × Values) :=
  let present := hasValue m sec name
  (if present then some m
    else (c.toStr default).map fun s => m.alter (lower sec) (lower name) (setText s)).bind fun m' =>
    (getValue c m' (if present then sec else lower sec) (if present then name else lower name)).bind
      fun r => if present = true ∨ default = r.1 then some r else none

/-- L36-50 and L146-154: booleans. -/
def boolCodec : Codec Bool where
  toStr b := some (if b then "true".toList else "false".toList)
  ofStr s :=
    if s = "1".toList ∨ s = "yes".toList ∨ s = "true".toList ∨ s = "on".toList then some true
    else if s = "0".toList ∨ s = "no".toList ∨ s = "false".toList ∨ s = "off".toList then some false
    else none

/-- L32-35 and L146-154: strings. -/
def strCodec : Codec Str where
  toStr s := some s
  ofStr s := some s

/-- L194-200, constructor: values and `print_config`. -/
def ofText (text : Str) : Option (Bool × Values) :=
  (iniParseString text).bind fun st =>
    if st.error = 0 then
      getValueDefault boolCodec (st.events.foldl valueHandler []) "ini".toList "print_config".toList
        false
    else none

/-- `std::setw(w)` with `std::left`. -/
def padRight (w : ℕ) (s : Str) : Str := s ++ List.replicate (w - s.length) ' '

/-- L366-372: the line of a variable, without line feed. -/
def varLine (name : Str) (v : Val) : Str :=
  padRight (max name.length 20) name ++ [' ', '=', ' '] ++
    padRight (max v.value.length 20) v.value ++
    (if v.used then [] else [' ', ';', ' ', 'U', 'n', 'u', 's', 'e', 'd']) ++
    (if v.fromFile then [] else [' ', ';', ' ', 'D', 'e', 'f', 'a', 'u', 'l', 't'])

/-- L352-378, `output`. -/
def output (m : Values) : Str :=
  m.flatMap fun s => ('[' :: s.1 ++ [']', '\n']) ++ s.2.flatMap fun v => varLine v.1 v.2 ++ ['\n']

end Verif.Config
