import Verif.Config.Text

/-!
# C31, C32: counterexamples and examples
-/

namespace Verif.Config

instance : DecidableEq Values := inferInstanceAs (DecidableEq (List (Str × List (Str × Val))))

/-- The values read from a text, `none` if it cannot be read. -/
def readValues (text : Str) : Option Values :=
  (iniParseString text).bind fun st =>
    if st.error = 0 then some (st.events.foldl valueHandler []) else none

/-- C31, why values must not begin with `;`: after `a=;b` the value is `;b`; it is written after a
blank and read back as empty. -/
theorem C31_semicolon_fails :
    ∃ m m', readValues "[s]\na=;b\n".toList = some m ∧ readValues (output m) = some m' ∧
      (m.get? ['s'] ['a']).map (·.value) = some [';', 'b'] ∧
      (m'.get? ['s'] ['a']).map (·.value) = some [] := by
  refine ⟨[(['s'], [(['a'], ⟨[';', 'b'], true, false⟩)])], [(['s'], [(['a'], ⟨[], true, false⟩)])],
    ?_, ?_, ?_, ?_⟩ <;> decide +kernel

/-- C31, why lines must be short: a line of 182 characters is read, but the line written for it has 212
characters and cannot be read. -/
theorem C31_long_line_fails :
    ∃ m, readValues ("[s]\na=".toList ++ List.replicate 180 'x') = some m ∧
      readValues (output m) = none := by
  refine ⟨[(['s'], [(['a'], ⟨List.replicate 180 'x', true, false⟩)])], ?_, ?_⟩ <;> decide +kernel

/-- A file with comments, mixed case, a repeated variable and a continuation line. -/
def exText : Str :=
  "; head\n[Mesh]\nLevel_Min = 3 ; low\nlevel_max=5\n[hydro]\ngamma0: 1.4\n  1.6\n[mesh]\nLEVEL_MAX=7".toList

theorem exText_read : readValues exText = some
    [("hydro".toList, [("gamma0".toList, ⟨"1.6".toList, true, false⟩)]),
      ("mesh".toList, [("level_max".toList, ⟨"7".toList, true, false⟩),
        ("level_min".toList, ⟨"3".toList, true, false⟩)])] := by decide +kernel

/-- Text as it is. -/
def exLookup : Lookup := ⟨Str, inferInstance, strCodec, "run".toList, "solver".toList, some "euler".toList⟩

/-- The hypotheses of `C31_file_written_reads_back` can be met. -/
example : ∃ b m₀ m, ofText exText = some (b, m₀) ∧ runAll m₀ [exLookup] = some m ∧
    (∀ st, iniParseString exText = some st → ∀ e ∈ st.events,
      e.name ≠ [] ∧ e.name.length < 49 ∧ ∀ c, e.value.head? = some c → c ≠ ';') ∧
    (∀ s ∈ m, ∀ v ∈ s.2, width v.1 v.2 ≤ 198) ∧ m.length = 4 := by
  refine ⟨false, [("hydro".toList, [("gamma0".toList, ⟨"1.6".toList, true, false⟩)]),
      ("ini".toList, [("print_config".toList, ⟨"false".toList, false, true⟩)]),
      ("mesh".toList, [("level_max".toList, ⟨"7".toList, true, false⟩),
        ("level_min".toList, ⟨"3".toList, true, false⟩)])],
      [("hydro".toList, [("gamma0".toList, ⟨"1.6".toList, true, false⟩)]),
      ("ini".toList, [("print_config".toList, ⟨"false".toList, false, true⟩)]),
      ("mesh".toList, [("level_max".toList, ⟨"7".toList, true, false⟩),
        ("level_min".toList, ⟨"3".toList, true, false⟩)]),
      ("run".toList, [("solver".toList, ⟨"euler".toList, false, true⟩)])],
    by decide +kernel, by decide +kernel, ?_, by decide +kernel, by decide +kernel⟩
  intro st hst
  have key : ((iniParseString exText).map fun st => st.events.all fun e =>
      decide (e.name ≠ [] ∧ e.name.length < 49 ∧ e.value.head? ≠ some ';')) = some true := by
    decide +kernel
  rw [hst, Option.map_some, Option.some.injEq, List.all_eq_true] at key
  intro e he
  have := of_decide_eq_true (key e he)
  exact ⟨this.1, this.2.1, fun c hc h => this.2.2 (h ▸ hc)⟩

/-- The same file after a lookup of a parameter that it gives: the hypothesis of the C32 theorems. -/
example : ∃ E m, readValues exText = some (E.foldl valueHandler []) ∧
    runAll (E.foldl valueHandler []) [exLookup] = some m ∧
    textOf E [exLookup] "MESH".toList "Level_max".toList = some "7".toList ∧
    textOf E [exLookup] "Run".toList "solver".toList = some "euler".toList := by
  refine ⟨[⟨"Mesh".toList, "Level_Min".toList, "3".toList⟩, ⟨"Mesh".toList, "level_max".toList, "5".toList⟩,
    ⟨"hydro".toList, "gamma0".toList, "1.4".toList⟩, ⟨"hydro".toList, "gamma0".toList, "1.6".toList⟩,
    ⟨"mesh".toList, "LEVEL_MAX".toList, "7".toList⟩],
    [("hydro".toList, [("gamma0".toList, ⟨"1.6".toList, true, false⟩)]),
      ("mesh".toList, [("level_max".toList, ⟨"7".toList, true, false⟩),
        ("level_min".toList, ⟨"3".toList, true, false⟩)]),
      ("run".toList, [("solver".toList, ⟨"euler".toList, false, true⟩)])],
    ?_, ?_, ?_, ?_⟩ <;> decide +kernel

end Verif.Config
