import Verif.Config.Lookup
import Verif.Io.Fortran
import Mathlib.Data.Fin.VecNotation
import Mathlib.Tactic.FinCases
import Mathlib.Data.Rat.Defs
import Mathlib.Data.Fintype.Pi

/-!
# C98: cosmological initial conditions from GRAFIC files, reading and configuration

Model of `core/src/init/InitialConditions_grafic_fields.cpp` L9-104 (header and constructor) and L126-146 (arrays). The values of
`float` and `real_t` are exact rational numbers, with one conversion from and to text for both types; `flt` is the value of the bytes
of a `float`. The name of the directory (L32-37) and the output are not modelled: the content of the files is given.
-/

namespace Verif.Init.Grafic

open Verif.Io Verif.Config

/-! ### Model -/

/-- What can happen instead of a result. `rejected`: a `DYABLO_ASSERT_HOST_RELEASE` fails or the configuration throws. `undefined`:
undefined behaviour. -/
inductive Failure
  | rejected
  | undefined
deriving DecidableEq, Repr

/-- L11-18. -/
structure Header where
  n : Fin 3 → ℤ
  dx : ℚ
  xo : Fin 3 → ℚ
  astart : ℚ
  om : ℚ
  ov : ℚ
  H0 : ℚ
deriving DecidableEq

/-- L11-18: the members of the structure with the given memory image of 11 words. -/
def headerOf (flt : List Byte → ℚ) (img : List Byte) : Header :=
  let w : ℕ → List Byte := fun i => (split 4 11 img).getD i []
  ⟨fun k => tagInt (w k), flt (w 3), fun k => flt (w (4 + k)), flt (w 7), flt (w 8), flt (w 9), flt (w 10)⟩

/-- L46, L117, L140: the header is read as one value of 44 bytes. `swap` is the static `_byteswap`. -/
def readHeader (flt : List Byte → ℚ) (swap : Bool) (s : List Byte) : Except Failure (Header × List Byte × Bool) :=
  match readRecord swap 44 1 s with
  | .ok vs rest swap' => .ok (headerOf flt (vs.getD 0 []), rest, swap')
  | .rejected _ => .error .rejected
  | .undefined => .error .undefined

/-- L143-144: `count` records of `size` values of type `float`. -/
def readPlanes (size : ℕ) : ℕ → Bool → List Byte → Except Failure (List (List (List Byte)) × Bool)
  | 0, swap, _ => .ok ([], swap)
  | count + 1, swap, s =>
    match readRecord swap 4 size s with
    | .ok vs rest swap' =>
      match readPlanes size count swap' rest with
      | .ok (ps, swap'') => .ok (vs :: ps, swap'')
      | .error f => .error f
    | .rejected _ => .error .rejected
    | .undefined => .error .undefined

/-- L128-146: the array of a file; the first index is the fastest (`LayoutLeft`). An index out of bounds is undefined behaviour
(`none`). `nx*ny` does not overflow (precondition of the theorems). -/
def readArray (flt : List Byte → ℚ) (n : Fin 3 → ℕ) (swap : Bool) (file : List Byte) :
    Except Failure (((Fin 3 → ℕ) → Option ℚ) × Bool) :=
  match readHeader flt swap file with
  | .error f => .error f
  | .ok (_, s, swap') =>
    match readPlanes (n 0 * n 1) (n 2) swap' s with
    | .error f => .error f
    | .ok (ps, swap'') => .ok (fun i => if ∀ k, i k < n k then some (flt ((ps.getD (i 2) []).getD (i 0 + n 0 * i 1) [])) else none, swap'')

/-- A product of two `int32_t`: undefined behaviour if it overflows. -/
def intMul (a b : ℤ) : Except Failure ℤ :=
  if -2 ^ 31 ≤ a * b ∧ a * b < 2 ^ 31 then .ok (a * b) else .error .undefined

/-- Conversion of an `int32_t` to `uint32_t`. -/
def toU32 (i : ℤ) : ℕ := (i % 2 ^ 32).toNat

/-- `configMap.getValue` with default. -/
def getOr {T : Type} [DecidableEq T] (c : Codec T) (m : Values) (sec name : Str) (d : T) : Except Failure (T × Values) :=
  match getValueDefault c m sec name d with
  | some r => .ok r
  | none => .error .rejected

/-- L50-63, `set_or_check`. -/
def setOrCheck {T : Type} [DecidableEq T] (c : Codec T) (m : Values) (sec name : Str) (val : T) : Except Failure Values :=
  if hasValue m sec name then
    match getValue c m sec name with
    | some (t, m') => if t = val then .ok m' else .error .rejected
    | none => .error .rejected
  else
    match getValueDefault c m sec name val with
    | some (_, m') => .ok m'
    | none => .error .rejected

/-- Successive calls of `set_or_check`. -/
def checkAll {T : Type} [DecidableEq T] (c : Codec T) : List (Str × Str × T) → Values → Except Failure Values
  | [], m => .ok m
  | (sec, name, val) :: l, m =>
    match setOrCheck c m sec name val with
    | .ok m' => checkAll c l m'
    | .error f => .error f

/-- L67: the number of cells. -/
def cellsOf (h : Header) : Except Failure ℤ :=
  match intMul (h.n 0) (h.n 1) with
  | .ok p => intMul p (h.n 2)
  | .error f => .error f

/-- `Mega * parsec`, `Units.h` L19, L27. -/
def megaParsec : ℚ := 1000000 * 30856770000000000

/-- L99. -/
def hubble (h : Header) : ℚ := h.H0 * 1000 / megaParsec

abbrev key (sec name : String) : Str × Str := (sec.toList, name.toList)

/-- L72-74. -/
def massChecks (mass0 fc fr : ℚ) : List (Str × Str × ℚ) :=
  [("amr".toList, "mass_coarsen".toList, mass0 * fc), ("amr".toList, "mass_refine".toList, mass0 * fr)]

/-- L80-82: the quotients are of `uint32_t`. -/
def sizeChecks (b : Fin 3 → ℕ) (h : Header) : List (Str × Str × ℕ) :=
  [("amr".toList, "coarse_oct_resolution_x".toList, toU32 (h.n 0) / b 0),
   ("amr".toList, "coarse_oct_resolution_y".toList, toU32 (h.n 1) / b 1),
   ("amr".toList, "coarse_oct_resolution_z".toList, toU32 (h.n 2) / b 2)]

/-- L83-94. -/
def cosmoChecks (h : Header) : List (Str × Str × ℚ) :=
  [("mesh".toList, "xmin".toList, h.xo 0), ("mesh".toList, "ymin".toList, h.xo 1), ("mesh".toList, "zmin".toList, h.xo 2),
   ("cosmology".toList, "astart".toList, h.astart), ("cosmology".toList, "omegam".toList, h.om),
   ("cosmology".toList, "omegav".toList, h.ov)]

/-- L97-103. -/
def unitChecks (h : Header) : List (Str × Str × ℚ) :=
  [("cosmology".toList, "H0".toList, hubble h), ("cosmology".toList, "dx".toList, h.dx * megaParsec)]

/-- L65-104 for the header `h`: the constructor. The result is `omegab` and the configuration; the other members are taken from the
header. In the code the quotient at L67 is infinite for a header with 0 cells; here this is counted as `undefined`. -/
def construct (c : Codec ℚ) (ci : Codec ℕ) (b : Fin 3 → ℕ) (h : Header) (m : Values) : Except Failure (ℚ × Values) := do
  let p ← cellsOf h
  if p = 0 then throw .undefined
  let mass0 : ℚ := 1 / p
  let (fc, m) ← getOr c m "cosmology".toList "mass_coarsen_factor".toList (1 / 10)
  let (fr, m) ← getOr c m "cosmology".toList "mass_refine_factor".toList 1
  let m ← checkAll c (massChecks mass0 fc fr) m
  if ∀ k, toU32 (h.n k) % b k = 0 then
    let m ← checkAll ci (sizeChecks b h) m
    let m ← checkAll c (cosmoChecks h) m
    let (ob, m) ← getOr c m "cosmology".toList "omegab".toList (49 / 1000)
    let m ← checkAll c (unitChecks h) m
    return (ob, m)
  else throw .rejected

/-- L39-104: the constructor for the content of `ic_deltab`, with the header it has read. -/
def constructFile (flt : List Byte → ℚ) (c : Codec ℚ) (ci : Codec ℕ) (b : Fin 3 → ℕ) (swap : Bool) (file : List Byte) (m : Values) :
    Except Failure (Header × ℚ × Values) := do
  let (h, _, _) ← readHeader flt swap file
  let r ← construct c ci b h m
  return (h, r)

/-! ### Specification -/

/-- A lookup without default gives the value `v`. -/
def Reads {T : Type} (c : Codec T) (m : Values) (sec name : String) (v : T) : Prop :=
  (getValue c m sec.toList name.toList).map Prod.fst = some v

/-- A GRAFIC file: the record of the header (the words `hw` of four bytes, as one structure of a Fortran program) and a record for
every plane, in the byte order `big`. The values are given by their little-endian images. -/
def graficFile (big : Bool) (hw : List (List Byte)) (planes : List (List (List Byte))) : List Byte :=
  record big hw ++ (planes.map (record big)).flatten

/-- The header whose words are `hw`. -/
def headerSpec (flt : List Byte → ℚ) (hw : List (List Byte)) : Header :=
  ⟨![tagInt (hw.getD 0 []), tagInt (hw.getD 1 []), tagInt (hw.getD 2 [])], flt (hw.getD 3 []),
    ![flt (hw.getD 4 []), flt (hw.getD 5 []), flt (hw.getD 6 [])], flt (hw.getD 7 []), flt (hw.getD 8 []), flt (hw.getD 9 []),
    flt (hw.getD 10 [])⟩

/-! ### Lemmas: files -/

/-- A record of words is a record of one value, up to the order of the words. -/
theorem record_words (big : Bool) (hw : List (List Byte)) :
    record big hw = record big [if big then hw.reverse.flatten else hw.flatten] := by
  unfold record
  have hs : ∀ l : List (List Byte), (l.map List.length).sum = l.flatten.length := fun l => (List.length_flatten).symm
  cases big
  · simp only [Bool.false_eq_true, if_false, List.map_cons, List.map_nil, List.sum_cons, List.sum_nil, Nat.add_zero, hs,
      map_inOrder_false]
    simp [inOrder]
  · have e : ((hw.map (inOrder true)).flatten) = (hw.reverse.flatten).reverse := by
      rw [List.reverse_flatten, List.map_reverse, List.reverse_reverse]
      rfl
    have e2 : hw.reverse.flatten.length = hw.flatten.length := by
      rw [List.length_flatten, List.length_flatten, List.map_reverse, List.sum_reverse]
    simp only [if_true, List.map_cons, List.map_nil, List.sum_cons, List.sum_nil, Nat.add_zero, hs, e, e2]
    simp [inOrder]

theorem headerOf_words (flt : List Byte → ℚ) {ws : List (List Byte)} (hl : ws.length = 11) (h4 : ∀ w ∈ ws, w.length = 4) :
    headerOf flt ws.flatten = headerSpec flt ws := by
  have e : split 4 11 ws.flatten = ws := by rw [← hl]; exact split_flatten h4
  unfold headerOf headerSpec
  rw [e]
  have e1 : (fun k : Fin 3 => tagInt (ws.getD k [])) = ![tagInt (ws.getD 0 []), tagInt (ws.getD 1 []), tagInt (ws.getD 2 [])] := by
    funext k; fin_cases k <;> rfl
  have e2 : (fun k : Fin 3 => flt (ws.getD (4 + k) [])) = ![flt (ws.getD 4 []), flt (ws.getD 5 []), flt (ws.getD 6 [])] := by
    funext k; fin_cases k <;> rfl
  simp only [e1, e2]

/-- The header of a file in either byte order. -/
theorem readHeader_file (flt : List Byte → ℚ) (swap big : Bool) {hw : List (List Byte)} (hl : hw.length = 11)
    (h4 : ∀ w ∈ hw, w.length = 4) (rest : List Byte) :
    readHeader flt swap (record big hw ++ rest) = .ok (headerSpec flt (if big then hw.reverse else hw), rest, big) := by
  have hlen : (if big then hw.reverse.flatten else hw.flatten).length = 44 := by
    have := flatten_length h4
    have h2 := flatten_length (vs := hw.reverse) (size := 4) (fun w hw' => h4 w (List.mem_reverse.1 hw'))
    rw [List.length_reverse] at h2
    cases big <;> simp [hl] at this h2 ⊢ <;> assumption
  have := C35_either_order_partial swap big 44 [if big then hw.reverse.flatten else hw.flatten] rest
    (by simp only [List.mem_singleton]; rintro v rfl; exact hlen) (by rw [List.length_singleton]; decide)
    (by rw [List.length_singleton]; decide) (by rw [List.length_singleton]; decide)
  unfold readHeader
  rw [record_words]
  simp only [List.length_singleton] at this
  rw [this]
  simp only [List.getD_cons_zero, Except.ok.injEq, Prod.mk.injEq, and_true]
  cases big
  · exact headerOf_words flt hl h4
  · exact headerOf_words flt (by simpa using hl) fun w hw' => h4 w (List.mem_reverse.1 hw')

theorem readPlanes_file (big : Bool) {size : ℕ} (hs : size * 4 < 2 ^ 31) :
    ∀ (ps : List (List (List Byte))), (∀ p ∈ ps, p.length = size ∧ ∀ v ∈ p, v.length = 4) →
      readPlanes size ps.length big ((ps.map (record big)).flatten) = .ok (ps, big) := by
  intro ps
  induction ps with
  | nil => intro _; rfl
  | cons p ps ih =>
    intro h
    obtain ⟨h1, h2⟩ := h p (by simp)
    have e := C35_same_order big 4 p ((ps.map (record big)).flatten) h2 (by rw [h1]; exact hs)
    rw [h1] at e
    simp only [List.length_cons, readPlanes, List.map_cons, List.flatten_cons, e, ih fun q hq => h q (by simp [hq])]

/-! ### Lemmas: configuration -/

theorem reads_iff {T : Type} {c : Codec T} {m : Values} (hm : Normal m) {sec name : String} {v : T} :
    Reads c m sec name v ↔ ∃ e, m.get? (lower sec.toList) (lower name.toList) = some e ∧ c.ofStr e.value = some v := by
  unfold Reads
  rw [getValue_spec hm]
  cases m.get? (lower sec.toList) (lower name.toList) with
  | none => simp
  | some e =>
    cases h : c.ofStr e.value with
    | none => simp [h]
    | some t => simp [h]

/-- The configuration `m'` has all the texts of `m`, and new entries only for the keys in `ks`. -/
structure Grows (ks : List (Str × Str)) (m m' : Values) : Prop where
  normal : Normal m'
  keeps : ∀ s n e, m.get? (lower s) (lower n) = some e → ∃ e', m'.get? (lower s) (lower n) = some e' ∧ e'.value = e.value
  only : ∀ s n, (∀ q ∈ ks, ¬ SameKey q.1 q.2 s n) → m.get? (lower s) (lower n) = none → m'.get? (lower s) (lower n) = none

theorem Grows.trans {ks ls : List (Str × Str)} {m m' m'' : Values} (h : Grows ks m m') (h' : Grows ls m' m'') :
    Grows (ks ++ ls) m m'' where
  normal := h'.normal
  keeps s n e he := by
    obtain ⟨e1, h1, h2⟩ := h.keeps s n e he
    obtain ⟨e2, h3, h4⟩ := h'.keeps s n e1 h1
    exact ⟨e2, h3, h4.trans h2⟩
  only s n hk hn := h'.only s n (fun q hq => hk q (List.mem_append_right _ hq))
    (h.only s n (fun q hq => hk q (List.mem_append_left _ hq)) hn)

theorem Grows.reads {ks : List (Str × Str)} {m m' : Values} (hm : Normal m) (h : Grows ks m m') {T : Type} {c : Codec T}
    {sec name : String} {v : T} (hr : Reads c m sec name v) : Reads c m' sec name v := by
  obtain ⟨e, h1, h2⟩ := (reads_iff hm).1 hr
  obtain ⟨e', h3, h4⟩ := h.keeps _ _ _ h1
  exact (reads_iff h.normal).2 ⟨e', h3, by rw [h4]; exact h2⟩

theorem grows_of {m m' : Values} {s n : Str} {v : Val} (hN : Normal m') (hv : ∀ e, m.get? (lower s) (lower n) = some e → e = v)
    (h : ∀ s' n', m'.get? (lower s') (lower n') = if SameKey s n s' n' then some { v with used := true } else m.get? (lower s') (lower n')) :
    Grows [(s, n)] m m' where
  normal := hN
  keeps s' n' e he := by
    rw [h]
    by_cases hk : SameKey s n s' n'
    · rw [if_pos hk]
      refine ⟨_, rfl, ?_⟩
      rw [← hv e]
      rw [← he]
      unfold SameKey at hk
      rw [hk.1, hk.2]
    · rw [if_neg hk]; exact ⟨e, he, rfl⟩
  only s' n' hk hn := by rw [h, if_neg (hk (s, n) (by simp))]; exact hn

theorem getOr_ok {T : Type} [DecidableEq T] {c : Codec T} {m m' : Values} (hm : Normal m) {sec name : String} {d t : T}
    (e : getOr c m sec.toList name.toList d = .ok (t, m')) :
    Grows [(sec.toList, name.toList)] m m' ∧ Reads c m' sec name t ∧
      (Reads c m sec name t ∨ m.get? (lower sec.toList) (lower name.toList) = none ∧ t = d) := by
  unfold getOr at e
  split at e
  · rename_i r hr
    cases e
    obtain ⟨hN, v, h1, h2, h3⟩ := getValueDefault_result hm hr
    refine ⟨grows_of hN ?_ h3, (reads_iff hN).2 ⟨_, (h3 _ _).trans (if_pos ⟨rfl, rfl⟩), h1⟩, ?_⟩
    · intro e he
      rcases h2 with h2 | ⟨h2, -⟩
      · rw [h2] at he; exact (Option.some.inj he).symm
      · rw [h2] at he; cases he
    · rcases h2 with h2 | ⟨h2, h4, -⟩
      · exact Or.inl ((reads_iff hm).2 ⟨v, h2, h1⟩)
      · exact Or.inr ⟨h2, h4⟩
  · cases e

theorem setOrCheck_ok {T : Type} [DecidableEq T] {c : Codec T} {m m' : Values} (hm : Normal m) {s n : Str} {val : T}
    (e : setOrCheck c m s n val = .ok m') :
    Grows [(s, n)] m m' ∧ ∃ v, m'.get? (lower s) (lower n) = some v ∧ c.ofStr v.value = some val := by
  unfold setOrCheck at e
  split at e
  · split at e
    · rename_i t m1 hg
      split at e
      · rename_i ht
        cases e
        subst ht
        obtain ⟨v, h1, h2, h3, h4⟩ := getValue_result hm hg
        refine ⟨grows_of h3 ?_ h4, _, (h4 _ _).trans (if_pos ⟨rfl, rfl⟩), h2⟩
        intro e he
        rw [h1] at he; exact (Option.some.inj he).symm
      · cases e
    · cases e
  · rename_i hno
    split at e
    · rename_i t m1 hg
      cases e
      obtain ⟨hN, v, h1, h2, h3⟩ := getValueDefault_result hm hg
      have hnone : m.get? (lower s) (lower n) = none := by
        unfold hasValue at hno
        simpa using hno
      refine ⟨grows_of hN ?_ h3, _, (h3 _ _).trans (if_pos ⟨rfl, rfl⟩), ?_⟩
      · intro e he
        rw [hnone] at he; cases he
      · rcases h2 with h2 | ⟨-, h4, -⟩
        · rw [hnone] at h2; cases h2
        · rw [← h4]; exact h1
    · cases e

theorem checkAll_ok {T : Type} [DecidableEq T] {c : Codec T} : ∀ {l : List (Str × Str × T)} {m m' : Values}, Normal m →
    checkAll c l m = .ok m' → Grows (l.map fun q => (q.1, q.2.1)) m m' ∧
      ∀ q ∈ l, ∃ v, m'.get? (lower q.1) (lower q.2.1) = some v ∧ c.ofStr v.value = some q.2.2 := by
  intro l
  induction l with
  | nil =>
    intro m m' hm e
    cases e
    exact ⟨⟨hm, fun _ _ e he => ⟨e, he, rfl⟩, fun _ _ _ h => h⟩, by simp⟩
  | cons q l ih =>
    obtain ⟨s, n, val⟩ := q
    intro m m' hm e
    unfold checkAll at e
    split at e
    · rename_i m1 h1
      obtain ⟨g1, v, v1, v2⟩ := setOrCheck_ok hm h1
      obtain ⟨g2, r2⟩ := ih g1.normal e
      refine ⟨g1.trans g2, fun q hq => ?_⟩
      rcases List.mem_cons.1 hq with rfl | hq
      · obtain ⟨v', h3, h4⟩ := g2.keeps _ _ _ v1
        exact ⟨v', h3, by rw [h4]; exact v2⟩
      · exact r2 q hq
    · cases e

theorem intMul_ok {a b p : ℤ} (h : intMul a b = .ok p) : p = a * b ∧ -2 ^ 31 ≤ p ∧ p < 2 ^ 31 := by
  unfold intMul at h
  split at h
  · cases h; rename_i h; exact ⟨rfl, h⟩
  · cases h

theorem cellsOf_ok {h : Header} {p : ℤ} (e : cellsOf h = .ok p) : p = h.n 0 * h.n 1 * h.n 2 ∧ p < 2 ^ 31 := by
  unfold cellsOf at e
  split at e
  · rename_i q hq
    obtain ⟨h1, -⟩ := intMul_ok hq
    obtain ⟨h2, -, h3⟩ := intMul_ok e
    exact ⟨by rw [h2, h1], h3⟩
  · cases e

/-- The keys of the constructor. -/
def keys : List (Str × Str) :=
  [key "cosmology" "mass_coarsen_factor", key "cosmology" "mass_refine_factor", key "amr" "mass_coarsen", key "amr" "mass_refine",
   key "amr" "coarse_oct_resolution_x", key "amr" "coarse_oct_resolution_y", key "amr" "coarse_oct_resolution_z",
   key "mesh" "xmin", key "mesh" "ymin", key "mesh" "zmin", key "cosmology" "astart", key "cosmology" "omegam",
   key "cosmology" "omegav", key "cosmology" "omegab", key "cosmology" "H0", key "cosmology" "dx"]

theorem other_keys : ∀ q ∈ keys.take 13, ¬ SameKey q.1 q.2 "cosmology".toList "omegab".toList := by decide

/-- What the constructor leaves in the configuration. -/
theorem construct_ok {c : Codec ℚ} {ci : Codec ℕ} {b : Fin 3 → ℕ} {h : Header} {m m' : Values} (hm : Normal m) {ob : ℚ}
    (e : construct c ci b h m = .ok (ob, m')) :
    (h.n 0 * h.n 1 * h.n 2 ≠ 0 ∧ h.n 0 * h.n 1 * h.n 2 < 2 ^ 31) ∧ (∀ k, toU32 (h.n k) % b k = 0) ∧ Grows keys m m' ∧
    (∃ fc fr : ℚ, Reads c m' "cosmology" "mass_coarsen_factor" fc ∧ Reads c m' "cosmology" "mass_refine_factor" fr ∧
      (m.get? (lower "cosmology".toList) (lower "mass_coarsen_factor".toList) = none → fc = 1 / 10) ∧
      (m.get? (lower "cosmology".toList) (lower "mass_refine_factor".toList) = none → fr = 1) ∧
      Reads c m' "amr" "mass_coarsen" (1 / (h.n 0 * h.n 1 * h.n 2 : ℤ) * fc) ∧
      Reads c m' "amr" "mass_refine" (1 / (h.n 0 * h.n 1 * h.n 2 : ℤ) * fr)) ∧
    (Reads ci m' "amr" "coarse_oct_resolution_x" (toU32 (h.n 0) / b 0) ∧
      Reads ci m' "amr" "coarse_oct_resolution_y" (toU32 (h.n 1) / b 1) ∧
      Reads ci m' "amr" "coarse_oct_resolution_z" (toU32 (h.n 2) / b 2)) ∧
    (Reads c m' "mesh" "xmin" (h.xo 0) ∧ Reads c m' "mesh" "ymin" (h.xo 1) ∧ Reads c m' "mesh" "zmin" (h.xo 2)) ∧
    (Reads c m' "cosmology" "astart" h.astart ∧ Reads c m' "cosmology" "omegam" h.om ∧ Reads c m' "cosmology" "omegav" h.ov) ∧
    (Reads c m' "cosmology" "omegab" ob ∧
      (m.get? (lower "cosmology".toList) (lower "omegab".toList) = none → ob = 49 / 1000)) ∧
    Reads c m' "cosmology" "H0" (hubble h) ∧ Reads c m' "cosmology" "dx" (h.dx * megaParsec) := by
  unfold construct at e
  simp only [bind, Except.bind, pure, Except.pure, throw, throwThe, MonadExceptOf.throw] at e
  split at e
  · cases e
  rename_i p hp
  obtain ⟨rfl, hlt⟩ := cellsOf_ok hp
  by_cases h0 : h.n 0 * h.n 1 * h.n 2 = 0
  · rw [if_pos h0] at e; cases e
  rw [if_neg h0] at e
  split at e
  · cases e
  rename_i r1 e1
  obtain ⟨fc, m1⟩ := r1
  simp only at e
  split at e
  · cases e
  rename_i r2 e2
  obtain ⟨fr, m2⟩ := r2
  simp only at e
  split at e
  · cases e
  rename_i m3 e3
  by_cases hmod : ∀ k, toU32 (h.n k) % b k = 0
  swap
  · rw [if_neg hmod] at e; cases e
  rw [if_pos hmod] at e
  split at e
  · cases e
  rename_i m4 e4
  split at e
  · cases e
  rename_i m5 e5
  split at e
  · cases e
  rename_i r6 e6
  obtain ⟨ob', m6⟩ := r6
  simp only at e
  split at e
  · cases e
  rename_i m7 e7
  simp only [Except.ok.injEq, Prod.mk.injEq] at e
  obtain ⟨rfl, rfl⟩ := e
  obtain ⟨g1, r1, d1⟩ := getOr_ok hm e1
  obtain ⟨g2, r2, d2⟩ := getOr_ok g1.normal e2
  obtain ⟨g3, r3⟩ := checkAll_ok g2.normal e3
  obtain ⟨g4, r4⟩ := checkAll_ok g3.normal e4
  obtain ⟨g5, r5⟩ := checkAll_ok g4.normal e5
  obtain ⟨g6, r6, d6⟩ := getOr_ok g5.normal e6
  obtain ⟨g7, r7⟩ := checkAll_ok g6.normal e7
  have k3 : Grows _ m3 m7 := g4.trans (g5.trans (g6.trans g7))
  have k4 : Grows _ m4 m7 := g5.trans (g6.trans g7)
  have k5 : Grows _ m5 m7 := g6.trans g7
  have k15 : Grows _ m m5 := g1.trans (g2.trans (g3.trans (g4.trans g5)))
  have R3 : ∀ q ∈ massChecks (1 / ((h.n 0 * h.n 1 * h.n 2 : ℤ) : ℚ)) fc fr, ∃ v, m7.get? (lower q.1) (lower q.2.1) = some v ∧
      c.ofStr v.value = some q.2.2 := fun q hq => by
    obtain ⟨v, h1, h2⟩ := r3 q hq
    obtain ⟨v', h3, h4⟩ := k3.keeps _ _ _ h1
    exact ⟨v', h3, by rw [h4]; exact h2⟩
  have R4 : ∀ q ∈ sizeChecks b h, ∃ v, m7.get? (lower q.1) (lower q.2.1) = some v ∧
      ci.ofStr v.value = some q.2.2 := fun q hq => by
    obtain ⟨v, h1, h2⟩ := r4 q hq
    obtain ⟨v', h3, h4⟩ := k4.keeps _ _ _ h1
    exact ⟨v', h3, by rw [h4]; exact h2⟩
  have R5 : ∀ q ∈ cosmoChecks h, ∃ v, m7.get? (lower q.1) (lower q.2.1) = some v ∧
      c.ofStr v.value = some q.2.2 := fun q hq => by
    obtain ⟨v, h1, h2⟩ := r5 q hq
    obtain ⟨v', h3, h4⟩ := k5.keeps _ _ _ h1
    exact ⟨v', h3, by rw [h4]; exact h2⟩
  have N := g7.normal
  refine ⟨⟨h0, hlt⟩, hmod, ?_, ⟨fc, fr, ?_, ?_, ?_, ?_, ?_, ?_⟩, ⟨?_, ?_, ?_⟩, ⟨?_, ?_, ?_⟩, ⟨?_, ?_, ?_⟩, ⟨?_, ?_⟩, ?_, ?_⟩
  · exact g1.trans (g2.trans (g3.trans k3))
  · exact Grows.reads g1.normal (g2.trans (g3.trans k3)) r1
  · exact Grows.reads g2.normal (g3.trans k3) r2
  · intro hn
    rcases d1 with d1 | d1
    · obtain ⟨v, hv, -⟩ := (reads_iff hm).1 d1
      rw [hn] at hv; cases hv
    · exact d1.2
  · intro hn
    rcases d2 with d2 | d2
    · obtain ⟨v, hv, -⟩ := (reads_iff g1.normal).1 d2
      rw [g1.only _ _ (by simp only [List.mem_singleton, forall_eq]; decide) hn] at hv; cases hv
    · exact d2.2
  · exact (reads_iff N).2 (R3 _ (List.mem_cons_self ..))
  · exact (reads_iff N).2 (R3 _ (List.mem_cons_of_mem _ (List.mem_cons_self ..)))
  · exact (reads_iff N).2 (R4 _ (List.mem_cons_self ..))
  · exact (reads_iff N).2 (R4 _ (List.mem_cons_of_mem _ (List.mem_cons_self ..)))
  · exact (reads_iff N).2 (R4 _ (List.mem_cons_of_mem _ (List.mem_cons_of_mem _ (List.mem_cons_self ..))))
  · exact (reads_iff N).2 (R5 _ (.head _))
  · exact (reads_iff N).2 (R5 _ (.tail _ (.head _)))
  · exact (reads_iff N).2 (R5 _ (.tail _ (.tail _ (.head _))))
  · exact (reads_iff N).2 (R5 _ (.tail _ (.tail _ (.tail _ (.head _)))))
  · exact (reads_iff N).2 (R5 _ (.tail _ (.tail _ (.tail _ (.tail _ (.head _))))))
  · exact (reads_iff N).2 (R5 _ (.tail _ (.tail _ (.tail _ (.tail _ (.tail _ (.head _)))))))
  · exact Grows.reads g6.normal g7 r6
  · intro hn
    rcases d6 with d6 | d6
    · obtain ⟨v, hv, -⟩ := (reads_iff g5.normal).1 d6
      rw [k15.only _ _ other_keys hn] at hv
      cases hv
    · exact d6.2
  · exact (reads_iff N).2 (r7 _ (List.mem_cons_self ..))
  · exact (reads_iff N).2 (r7 _ (List.mem_cons_of_mem _ (List.mem_cons_self ..)))

end Verif.Init.Grafic
