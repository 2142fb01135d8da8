import Verif.Config.Props
import Mathlib.Logic.Function.Basic
import Mathlib.Data.Rat.Init

/-!
# C33, C34: enum options, factories, typed scalar map

Models of `core/src/utils/config/named_enum.h`, the enum case of `ConfigMap.h`,
`core/src/utils/misc/RegisteringFactory.h` and `core/src/utils/misc/MultiTypeMap.h`.
-/

namespace Verif.Config

/-! ### Enums -/

/-- Table of an enum: `named_enum<T>::names()`. Values are those of the underlying type, which is a
32-bit unsigned integer for the enums of the code. -/
abbrev EnumTable := List (ℕ × Str)

/-- `named_enum.h` L17-20 with L48-58: `insert` keeps the first entry of a name. -/
def fromString (t : EnumTable) (s : Str) : Option ℕ := (t.find? fun e => e.2 = s).map (·.1)

/-- L22-25: the first entry of a value. -/
def enumToString (t : EnumTable) (v : ℕ) : Option Str := (t.find? fun e => e.1 = v).map (·.2)

/-- Value of a string of decimal digits. -/
def digits : Str → ℕ → Option ℕ
  | [], acc => some acc
  | c :: s, acc =>
    if 48 ≤ c.toNat ∧ c.toNat ≤ 57 then digits s (acc * 10 + (c.toNat - 48)) else none

/-- `ConfigMap.h` L78-85 for a 32-bit unsigned integer: `std::istringstream >> unsigned`, then the end
of the string must be reached. White space is skipped first, a sign is allowed, too large numbers
fail, a negative number is taken modulo `2^32`. -/
def parseUInt (s : Str) : Option ℕ :=
  let num := fun t : Str => if t = [] then none else (digits t 0).bind fun v =>
    if v < 2 ^ 32 then some v else none
  match lskip s with
  | '-' :: t => (num t).map fun v => (2 ^ 32 - v) % 2 ^ 32
  | '+' :: t => num t
  | t => num t

/-- `ConfigMap.h` L51-73 and L127-147: an integer is tried first, then the names. -/
def enumCodec (t : EnumTable) : Codec ℕ where
  toStr v := enumToString t v
  ofStr s := (parseUInt s).or (fromString t s)

/-- C33: every option of a table whose names are distinct and not numbers converts to its name and
back. -/
theorem C33_option_round_trip {t : EnumTable} (hd : t.Pairwise fun a b => a.2 ≠ b.2)
    (hn : ∀ e ∈ t, parseUInt e.2 = none) {v : ℕ} (hv : ∃ e ∈ t, e.1 = v) :
    ∃ s, (enumCodec t).toStr v = some s ∧ (v, s) ∈ t ∧ (enumCodec t).ofStr s = some v := by
  have h1 : (t.find? fun e => e.1 = v).isSome := by
    rw [List.find?_isSome]
    obtain ⟨e, he, h⟩ := hv
    exact ⟨e, he, by simpa using h⟩
  obtain ⟨e, he⟩ := Option.isSome_iff_exists.1 h1
  have hm := List.mem_of_find?_eq_some he
  have hev : e.1 = v := by simpa using List.find?_some he
  refine ⟨e.2, by simp [enumCodec, enumToString, he], hev ▸ hm, ?_⟩
  simp only [enumCodec]
  rw [hn e hm, Option.none_or]
  have key : ∀ {t : EnumTable}, (t.Pairwise fun a b => a.2 ≠ b.2) → e ∈ t →
      fromString t e.2 = some e.1 := by
    intro t hd hm
    unfold fromString
    induction t with
    | nil => simp at hm
    | cons a t ih =>
      rw [List.pairwise_cons] at hd
      rcases List.mem_cons.1 hm with rfl | hm
      · rw [List.find?_cons_of_pos (by simp)]; rfl
      · rw [List.find?_cons_of_neg (by simpa using hd.1 e hm)]
        exact ih hd.2 hm
  rw [key hd hm, hev]

/-- C33 (partial: only for texts that are not numbers, see `C33_number_accepted_fails`): a text is
accepted if and only if it is the name of an option. -/
theorem C33_unknown_rejected_partial (t : EnumTable) {s : Str} (hs : parseUInt s = none) :
    ((enumCodec t).ofStr s).isSome ↔ ∃ e ∈ t, e.2 = s := by
  simp only [enumCodec]
  rw [hs, Option.none_or, fromString, Option.isSome_map, List.find?_isSome]
  simp

/-- A value without option has no text: writing it as a default raises an error. -/
theorem C33_no_text_for_other_values (t : EnumTable) (v : ℕ) :
    (enumCodec t).toStr v = none ↔ ∀ e ∈ t, e.1 ≠ v := by
  simp only [enumCodec, enumToString]
  rw [Option.map_eq_none_iff, List.find?_eq_none]
  simp

/-- `enums.h` L15-25 (with the values L7-14). -/
def boundaryTable : EnumTable :=
  [(1, "reflecting".toList), (2, "absorbing".toList), (3, "periodic".toList), (5, "userdef".toList)]

/-- The tables of the code: `enums.h` L19-24, L49-54, L65-68, L79-82, `RiemannSolvers.h` L25-33,
`ParabolicTerm_thermal_conduction.h` L24-31, `IOManager_hdf5.cpp` L25-31. -/
def tables : List EnumTable :=
  [boundaryTable,
    [(0, "none".toList), (1, "constant_scalar".toList), (3, "constant_field".toList), (2, "field".toList)],
    [(0, "viscosity".toList), (1, "thermal_conduction".toList)],
    [(0, "constant".toList), (1, "analytical".toList)],
    [(1, "hllc".toList), (3, "hlld".toList), (2, "five_waves".toList)],
    [(0, "none".toList), (1, "tri_layer".toList)],
    [(0, "float".toList), (1, "double".toList)]]

/-- All tables of the code meet the hypotheses of `C33_option_round_trip`. -/
theorem C33_tables_of_the_code : ∀ t ∈ tables, (t.Pairwise fun a b => a.2 ≠ b.2) ∧
    (∀ e ∈ t, parseUInt e.2 = none) ∧ t ≠ [] := by decide +kernel

/-- C33, the code violates the property: any number is accepted for an enum, also if no option has that
value (`static_cast` in `ConfigMap.h` L53). -/
theorem C33_number_accepted_fails :
    (enumCodec boundaryTable).ofStr "17".toList = some 17 ∧ (∀ e ∈ boundaryTable, e.1 ≠ 17) ∧
    (enumCodec boundaryTable).ofStr "-1".toList = some (2 ^ 32 - 1) := by decide +kernel

/-! ### Factory -/

/-- `RegisteringFactory.h` L85-101, `register_class`; `C` are the classes. -/
def registerClass {C : Type} (m : List (Str × C)) (id : Str) (c : C) : Option (List (Str × C)) :=
  if id = "none".toList then none
  else if (get? id m).isSome then none
  else some (alter id (fun _ => c) m)

/-- L60-82, `make_instance`: `some none` is a null pointer. -/
def makeInstance {C : Type} (m : List (Str × C)) (id : Str) : Option (Option C) :=
  if id = "none".toList then some none else (get? id m).map some

/-- A sequence of registrations. -/
def registerAll {C : Type} (rs : List (Str × C)) : Option (List (Str × C)) :=
  rs.foldlM (fun m r => registerClass m r.1 r.2) []

theorem registerAll_spec {C : Type} (rs : List (Str × C)) :
    (∀ m, registerAll rs = some m → m.Pairwise (fun a b => a.1 < b.1) ∧
      ∀ id, get? id m = get? id rs) ∧
    (registerAll rs = none ↔ (∃ r ∈ rs, r.1 = "none".toList) ∨ ¬ rs.Pairwise fun a b => a.1 ≠ b.1) := by
  unfold registerAll
  induction rs using List.reverseRecOn with
  | nil =>
    refine ⟨fun m h => ?_, by simp⟩
    simp only [List.foldlM_nil, Option.pure_def, Option.some.injEq] at h
    subst h
    exact ⟨by simp, fun _ => rfl⟩
  | append_singleton rs r ih =>
    obtain ⟨ih1, ih2⟩ := ih
    rw [List.foldlM_append]
    simp only [List.foldlM_cons, List.foldlM_nil]
    have happ : ∀ id, get? id (rs ++ [r]) = (get? id rs).or (if r.1 = id then some r.2 else none) := by
      intro id
      unfold get?
      rw [List.find?_append]
      cases hf : rs.find? fun e => decide (e.1 = id) with
      | some e => rfl
      | none =>
        by_cases h : r.1 = id
        · rw [if_pos h, List.find?_cons_of_pos (by simpa using h)]; rfl
        · rw [if_neg h, List.find?_cons_of_neg (by simpa using h)]; rfl
    have hpair : (rs ++ [r]).Pairwise (fun a b => a.1 ≠ b.1) ↔
        rs.Pairwise (fun a b => a.1 ≠ b.1) ∧ ∀ a ∈ rs, a.1 ≠ r.1 := by
      rw [List.pairwise_append]
      simp
    have hsome : (get? r.1 rs).isSome ↔ ∃ a ∈ rs, a.1 = r.1 := by
      unfold get?
      rw [Option.isSome_map, List.find?_isSome]
      simp
    cases hr : rs.foldlM (fun m r => registerClass m r.1 r.2) ([] : List (Str × C)) with
    | none =>
      refine ⟨fun m h => by simp at h, ⟨fun _ => ?_, fun _ => rfl⟩⟩
      rcases ih2.1 hr with ⟨a, ha, h⟩ | h
      · exact Or.inl ⟨a, by simp [ha], h⟩
      · exact Or.inr fun h' => h (hpair.1 h').1
    | some m =>
      obtain ⟨hs, hg⟩ := ih1 m hr
      have hno : ¬((∃ r ∈ rs, r.1 = "none".toList) ∨ ¬ rs.Pairwise fun a b => a.1 ≠ b.1) := by
        rw [← ih2, hr]; simp
      rw [not_or, not_not] at hno
      simp only [Option.bind_eq_bind, Option.bind_some, Option.pure_def, Option.bind_fun_some]
      unfold registerClass
      constructor
      · intro m' h
        split at h
        · simp at h
        · split at h
          · simp at h
          · rename_i h1 h2
            cases h
            refine ⟨alter_sorted hs, fun id => ?_⟩
            rw [get?_alter _ _ _ hs, happ, hg]
            by_cases e : id = r.1
            · subst e
              rw [if_pos rfl, if_pos rfl]
              rw [hg] at h2
              rw [Option.not_isSome_iff_eq_none] at h2
              rw [h2]; rfl
            · rw [if_neg e, if_neg (Ne.symm e), Option.or_none]
      · rw [hpair]
        split
        · rename_i h
          exact ⟨fun _ => Or.inl ⟨r, by simp, h⟩, fun _ => rfl⟩
        · rename_i h1
          split
          · rename_i h2
            rw [hg, hsome] at h2
            obtain ⟨a, ha, h⟩ := h2
            exact ⟨fun _ => Or.inr fun h' => h'.2 a ha h, fun _ => rfl⟩
          · rename_i h2
            rw [hg, hsome] at h2
            refine ⟨fun h => by simp at h, ?_⟩
            rintro (⟨a, ha, h⟩ | h)
            · rcases List.mem_append.1 ha with ha | ha
              · exact absurd ⟨a, ha, h⟩ hno.1
              · rw [List.mem_singleton.1 ha] at h; exact absurd h h1
            · exact absurd ⟨hno.2, fun a ha e => h2 ⟨a, ha, e⟩⟩ h

/-- C33: registration fails if and only if an identifier is repeated or reserved; otherwise a factory
makes the class registered for an identifier, a null pointer for `none`, and rejects all other
identifiers. -/
theorem C33_factory {C : Type} (rs : List (Str × C)) :
    (registerAll rs = none ↔ (∃ r ∈ rs, r.1 = "none".toList) ∨ ¬ rs.Pairwise fun a b => a.1 ≠ b.1) ∧
    ∀ m, registerAll rs = some m → makeInstance m "none".toList = some none ∧
      (∀ r ∈ rs, makeInstance m r.1 = some (some r.2)) ∧
      ∀ id, id ≠ "none".toList → (∀ r ∈ rs, r.1 ≠ id) → makeInstance m id = none := by
  refine ⟨(registerAll_spec rs).2, fun m hm => ?_⟩
  obtain ⟨-, hg⟩ := (registerAll_spec rs).1 m hm
  have hno : ¬((∃ r ∈ rs, r.1 = "none".toList) ∨ ¬ rs.Pairwise fun a b => a.1 ≠ b.1) := by
    rw [← (registerAll_spec rs).2, hm]; simp
  rw [not_or, not_not] at hno
  refine ⟨by simp [makeInstance], fun r hr => ?_, fun id h1 h2 => ?_⟩
  · unfold makeInstance
    rw [if_neg fun h => hno.1 ⟨r, hr, h⟩, hg]
    have key : ∀ {rs : List (Str × C)}, (rs.Pairwise fun a b => a.1 ≠ b.1) → r ∈ rs →
        get? r.1 rs = some r.2 := by
      intro rs hp hr
      induction rs with
      | nil => simp at hr
      | cons a rs ih =>
        rw [List.pairwise_cons] at hp
        rw [show a = (a.1, a.2) from rfl, get?_cons]
        rcases List.mem_cons.1 hr with rfl | hr
        · rw [if_pos rfl]
        · rw [if_neg (hp.1 r hr), ih hp.2 hr]
    rw [key hno.2 hr]; rfl
  · unfold makeInstance
    rw [if_neg h1, hg]
    unfold get?
    rw [List.find?_eq_none.2 (by simpa using h2)]
    rfl

example : ∃ m, registerAll [("euler".toList, 0), ("MHD".toList, 1)] = some m ∧
    registerAll [("euler".toList, 0), ("MHD".toList, 1), ("euler".toList, 2)] = none := by
  refine ⟨[("MHD".toList, 1), ("euler".toList, 0)], ?_, ?_⟩ <;> decide +kernel

/-! ### Typed scalar map -/

section
variable {ι : Type} [DecidableEq ι] {V : ι → Type}

/-- `MultiTypeMap.h` L84: one map per type; `ι` are the types and `V i` the values of type `i`. -/
abbrev TypedMap (V : ι → Type) := (i : ι) → List (Str × V i)

/-- L57-60, `set`. -/
def TypedMap.set (m : TypedMap V) (i : ι) (name : Str) (v : V i) : TypedMap V :=
  Function.update m i (alter name (fun _ => v) (m i))

/-- L21-48, `get`; `none`: `std::runtime_error`. -/
def TypedMap.get (m : TypedMap V) (i : ι) (name : Str) : Option (V i) := get? name (m i)

/-- A write. -/
structure Write (V : ι → Type) where
  type : ι
  name : Str
  value : V type

/-- A sequence of writes. -/
def writeAll (m : TypedMap V) (ws : List (Write V)) : TypedMap V :=
  ws.foldl (fun m w => TypedMap.set m w.type w.name w.value) m

/-- The last value written under a name with a type. -/
def lastWritten : List (Write V) → (i : ι) → Str → Option (V i)
  | [], _, _ => none
  | w :: ws, i, n => (lastWritten ws i n).or
      (if h : w.type = i ∧ w.name = n then some (h.1 ▸ w.value) else none)

/-- C34: after any writes, reading a name with a type returns the last value written under that name
with that type, and raises an error if there is none. -/
theorem C34_typed_map (ws : List (Write V)) (i : ι) (n : Str) :
    TypedMap.get (writeAll (fun _ => []) ws) i n =
      lastWritten ws i n := by
  have key : ∀ (ws : List (Write V)) (m : TypedMap V),
      (∀ i, (m i).Pairwise fun a b => a.1 < b.1) →
      (writeAll m ws).get i n =
        (lastWritten ws i n).or (m.get i n) := by
    intro ws
    induction ws with
    | nil => intro m _; rfl
    | cons w ws ih =>
      intro m hm
      rw [show writeAll m (w :: ws) = writeAll (m.set w.type w.name w.value) ws from rfl, ih,
        lastWritten]
      · have h1 : (m.set w.type w.name w.value).get i n =
            (if h : w.type = i ∧ w.name = n then some (h.1 ▸ w.value) else none).or (m.get i n) := by
          unfold TypedMap.get TypedMap.set
          by_cases hi : w.type = i
          · subst hi
            rw [Function.update_self, get?_alter _ _ _ (hm _)]
            by_cases hn : n = w.name
            · rw [if_pos hn, dif_pos ⟨rfl, hn.symm⟩]; rfl
            · rw [if_neg hn, dif_neg fun h => hn h.2.symm]; rfl
          · rw [Function.update_of_ne (Ne.symm hi), dif_neg fun h => hi h.1]; rfl
        rw [h1, Option.or_assoc]
      · intro j
        unfold TypedMap.set
        by_cases hj : j = w.type
        · subst hj
          rw [Function.update_self]
          exact alter_sorted (hm _)
        · rw [Function.update_of_ne hj]
          exact hm j
  rw [key ws _ (fun _ => by simp)]
  have : TypedMap.get (fun _ => [] : TypedMap V) i n = none := rfl
  rw [this, Option.or_none]

/-- C34: a name never written with a type raises an error, whatever was written with other types. -/
theorem C34_error (ws : List (Write V)) (i : ι) (n : Str)
    (h : ∀ w ∈ ws, w.name = n → w.type ≠ i) :
    TypedMap.get (writeAll (fun _ => []) ws) i n = none := by
  rw [C34_typed_map]
  induction ws with
  | nil => rfl
  | cons w ws ih =>
    rw [lastWritten, ih fun w hw => h w (by simp [hw]),
      dif_neg fun h' => h w (by simp) h'.2 h'.1]
    rfl

end

/-- `ScalarSimulationData.h`: integers and reals; here natural numbers stand for integers and rational
ones for reals. -/
abbrev ScalarType (b : Bool) : Type := if b then ℕ else ℚ

/-- The same name written with both types, and twice with one. -/
def exWrites : List (Write ScalarType) :=
  [⟨true, "iter".toList, (3 : ℕ)⟩, ⟨false, "iter".toList, (1 : ℚ)⟩, ⟨true, "iter".toList, (4 : ℕ)⟩]

example : lastWritten exWrites true "iter".toList = some (4 : ℕ) := rfl

example : lastWritten exWrites false "time".toList = none := rfl

end Verif.Config
