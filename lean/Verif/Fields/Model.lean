import Mathlib.Data.Finset.Card
import Mathlib.Data.Finset.Sort
import Mathlib.Data.List.Basic

/-!
# Model of `core/src/UserData_fields.h`

Names are any linearly ordered type (`std::string`); a `std::map` is its set of keys and a function;
its iteration order is the order of the names. `L` and `H` are the cells of local and ghost
octants. `none`: exception, failed release assertion or access outside an array.
-/

namespace Verif.Fields

/-- `FieldManager.h` L23: `MAX_INDEX_COUNT`, the largest number of fields of a `FieldManager`. -/
def maxIndexCount : ℕ := 64

/-- `UserData_fields.h` L208: `MAX_FIELD_COUNT`, the size of `fm_active`. -/
def maxFieldCount : ℕ := 32

/-- `UserData_fields.h` L185-192. `nalloc` is `fields.nbfields()`, `U i (inl c)` is `fields.U` and
`U i (inr c)` is `fields.Ughost` at slot `i`. -/
structure State (N L H α : Type) where
  nalloc : ℕ
  U : ℕ → L ⊕ H → α
  keys : Finset N
  idx : N → ℕ
  maxCount : ℕ

variable {N L H L' H' α : Type} [LinearOrder N] [Zero α]

/-- L29-31: no field. -/
def State.empty [Inhabited N] : State N L H α := ⟨0, fun _ _ => 0, ∅, fun _ => 0, 0⟩

/-- L44-60, `extend_fields`. New views are filled with zeros (Kokkos). -/
def extendFields (s : State N L H α) : Option (State N L H α) :=
  if s.maxCount ≤ maxIndexCount ∧ s.nalloc ≤ s.maxCount then
    some { s with nalloc := s.maxCount, U := fun i c => if i < s.nalloc then s.U i c else 0 }
  else none

/-- L88-102, `first_free`. -/
def firstFree (s : State N L H α) : Option ℕ :=
  (List.range s.nalloc).find? fun i => decide (∀ n ∈ s.keys, s.idx n ≠ i)

/-- L85-121: one iteration of the loop of `new_fields`. -/
def newField (s : State N L H α) (n : N) : Option (State N L H α) :=
  if n ∈ s.keys then none
  else (firstFree s).map fun i =>
    { s with keys := insert n s.keys, idx := Function.update s.idx n i,
             U := Function.update s.U i fun _ => 0 }

/-- L66-123, `new_fields`; `names` is the content of the `std::set` in order. The assertions L70-71
(arrays have the size of the mesh) are not modelled. -/
def newFields (s : State N L H α) (names : List N) : Option (State N L H α) :=
  let needed := s.keys.card + names.length
  let s := { s with maxCount := max s.maxCount needed }
  (if s.nalloc < needed then extendFields s else some s).bind fun s => names.foldlM newField s

/-- L159-165, `move_field`. -/
def moveField (s : State N L H α) (dest src : N) : Option (State N L H α) :=
  if src ∈ s.keys then
    some { s with keys := (insert dest s.keys).erase src,
                  idx := Function.update s.idx dest (s.idx src) }
  else none

/-- L167-170, `delete_field`. -/
def deleteField (s : State N L H α) (n : N) : State N L H α :=
  { s with keys := s.keys.erase n }

/-- L142-156, `getField`: a copy of the local values; the ghosts of the copy are zero. -/
def getField (s : State N L H α) (n : N) : Option (L ⊕ H → α) :=
  if n ∈ s.keys then
    some fun c => match c with
      | .inl l => s.U (s.idx n) (.inl l)
      | .inr _ => 0
  else none

/-- L203-276, `FieldAccessor`: slot of each id (`fm_ivar`) and of each position (`fm_active`). -/
structure Accessor where
  ivar : ℕ → Option ℕ
  active : List ℕ

/-- L223-252. `infos` are (name, id). -/
def getAccessor (s : State N L H α) (infos : List (N × ℕ)) : Option Accessor :=
  if infos = [] then none
  else if maxFieldCount < infos.length then none
  else infos.foldlM (fun (a : Accessor) (info : N × ℕ) =>
    if info.1 ∉ s.keys then none
    else if maxIndexCount ≤ info.2 then none
    else if (a.ivar info.2).isSome then none
    else some ⟨Function.update a.ivar info.2 (some (s.idx info.1)), a.active ++ [s.idx info.1]⟩)
    ⟨fun _ => none, []⟩

/-- L253-257, `FieldAccessor::at` on the left of an assignment. -/
def accWrite [DecidableEq L] [DecidableEq H] (s : State N L H α) (a : Accessor) (id : ℕ) (c : L ⊕ H)
    (v : α) : Option (State N L H α) :=
  (a.ivar id).map fun i => { s with U := Function.update s.U i (Function.update (s.U i) c v) }

/-- L253-257, `FieldAccessor::at` as a value. -/
def accRead (s : State N L H α) (a : Accessor) (id : ℕ) (c : L ⊕ H) : Option α :=
  (a.ivar id).map fun i => s.U i c

/-- Position of a name in the iteration order of the map. -/
def rank (keys : Finset N) (n : N) : ℕ := (keys.filter (· < n)).card

/-- L303-325, `backup_and_realloc`, state afterwards; the old arrays stay in the accessor returned
(the argument `s` here). The accessor of L305-309 needs at least one and at most 32 fields. Cells may
be of another mesh (`foreach_cell` has the new one). -/
def realloc (s : State N L H α) : Option (State N L' H' α) :=
  if s.keys.card = 0 ∨ maxFieldCount < s.keys.card then none
  else some ⟨s.keys.card, fun _ _ => 0, s.keys, rank s.keys, s.maxCount⟩

/-- Remapping as used by `amr/MapUserData_mean.cpp` L28-46: reallocation, then each new field is
computed from the old field with the same id (the ids number the names in order on both sides); `f` is
the computation for one field. -/
def remapWith (f : (L ⊕ H → α) → L' ⊕ H' → α) (s : State N L H α) : Option (State N L' H' α) :=
  (realloc s).map fun s' : State N L' H' α =>
    { s' with U := fun j => match (s.keys.sort (· ≤ ·)).find? fun n => rank s.keys n = j with
        | some n => f (s.U (s.idx n))
        | none => fun _ => 0 }

/-- L278-296, `exchange_loadbalance`. `R` is what `exchange_ghosts<2>` does to the octants of one slot
(C22, the same for all slots). -/
def exchangeLoadbalance (R : (L → α) → L' → α) (s : State N L H α) : Option (State N L' H' α) :=
  (realloc s).bind fun s' : State N L' H' α =>
    extendFields { s' with U := fun j c => match c with
      | .inl l => if j < s.keys.card then R (fun l => s.U j (.inl l)) l else 0
      | .inr _ => 0 }

end Verif.Fields
