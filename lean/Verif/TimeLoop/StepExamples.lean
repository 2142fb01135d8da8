import Verif.TimeLoop.StepProps

/-!
# Examples for C99
-/

namespace Verif.StepFields

open Verif.Fields

/-- A state with some fields, in the order of the list, on 4 cells and 2 ghosts. -/
def exState (l : List String) (v : String → ℤ) : State String (Fin 4) (Fin 2) ℤ where
  nalloc := l.length
  U i _ := v (l.getD i "")
  keys := l.toFinset
  idx n := l.idxOf n
  maxCount := l.length

theorem exState_inv {l : List String} (v : String → ℤ) (hl : l.length ≤ 64) : Fields.Inv (exState l v) where
  inj _ ha _ _ h := (List.idxOf_inj (List.mem_toFinset.1 ha)).1 h
  lt _ ha := List.idxOf_lt_length_of_mem (List.mem_toFinset.1 ha)
  le := le_refl _
  lim := hl

theorem exState_holds (l : List String) (v : String → ℤ) : Holds (exState l v) ⟨l.toFinset, fun n _ => v n⟩ where
  names := rfl
  data n hn := by
    funext c
    have h := List.idxOf_lt_length_of_mem (List.mem_toFinset.1 hn)
    simp only [exState]
    rw [List.getD_eq_getElem?_getD, List.getElem?_eq_getElem h, Option.getD_some, List.getElem_idxOf h]

theorem not_temporary {n : String} (h1 : n ≠ "rho_g") (h2 : n ≠ "rho_bak")
    (h3 : n.toList.reverse.take 5 ≠ "_next".toList.reverse) : ¬ Temporary n := by
  rintro (h | h | ⟨m, rfl⟩)
  · exact h1 h
  · exact h2 h
  · refine h3 ?_
    unfold next
    rw [String.toList_append, List.reverse_append]
    rfl

/-- Self-gravitating gas and particles, refined by mass. -/
def exGas : Setup := ⟨some .cg, GRAVITY_FIELD, "HydroUpdate_hancock", true, some ["gx", "gy", "gz"], none⟩

/-- The fields of the gas. -/
def exGasFields : List String := ["rho", "e_tot", "rho_vx", "rho_vy", "rho_vz"]

/-- MHD with cleaning, no gravity, refined by density and momentum. -/
def exMhd : Setup := ⟨none, GRAVITY_NONE, "GLMMHDUpdate_euler", false, none, some ["rho", "rho_vx"]⟩

/-- Their fields. -/
def exMhdFields : List String := exGasFields ++ ["Bx", "By", "Bz", "psi"]

theorem exGas_fits : Fits exGas exGasFields.toFinset (some hydroFields) where
  valid g h := by cases h; rfl
  made := by decide
  fluid := by decide
  vars names e := by cases e; decide
  acceleration := by decide
  needs h := by cases h
  names n hn := by
    have : ∀ n ∈ exGasFields, n ≠ "rho_g" ∧ n ≠ "rho_bak" ∧ n.toList.reverse.take 5 ≠ "_next".toList.reverse := by decide
    obtain ⟨a, b, c⟩ := this n (List.mem_toFinset.1 hn)
    exact not_temporary a b c
  move l e := by cases e; decide
  mark l e := by cases e
  few := by decide

theorem exMhd_fits : Fits exMhd exMhdFields.toFinset (some glmFields) where
  valid g h := by cases h
  made := by decide
  fluid := by decide
  vars names e := by cases e; decide
  acceleration := by decide
  needs _ _ := by decide
  names n hn := by
    have : ∀ n ∈ exMhdFields, n ≠ "rho_g" ∧ n ≠ "rho_bak" ∧ n.toList.reverse.take 5 ≠ "_next".toList.reverse := by decide
    obtain ⟨a, b, c⟩ := this n (List.mem_toFinset.1 hn)
    exact not_temporary a b c
  move l e := by cases e
  mark l e := by cases e; decide
  few := by decide

/-- Solvers that do something: the particles add 5 to the density, gravity is minus the density, the gas adds the density to all
fields and falls, cooling takes from what the gas solver gave. -/
def exWork : Work (Fin 4 ⊕ Fin 2) ℤ ℤ where
  exchange d c := match c with
    | .inl l => d (.inl l)
    | .inr _ => d (.inl 0)
  project rho g c := rho c + g c + 5
  gravity d n c := if n = "gx" then -d "rho" c else d "gphi" c
  hydro d n c := d n c + d "rho" c + d "gx" c
  extras := [(["e_tot"], fun d new n c => new n c - d n c)]
  projectMark rho g c := rho c + g c + 5
  mark d := d "rho_g" (.inl 0)
  adapt m d c := d c * m

theorem exWork_fits : exWork.Fits (some hydroFields) := by
  intro names e
  cases e
  intro x hx
  rw [List.mem_singleton.1 hx]
  decide

/-- A step of the gas with an AMR cycle and load balancing. -/
example : ∃ s', step exGas exWork true (some fun f l => f (l + 1)) (exState exGasFields fun _ => 3) = some s' ∧
    s'.keys = {"rho", "e_tot", "rho_vx", "rho_vy", "rho_vz", "gx", "gy", "gz", "gphi"} := by
  obtain ⟨s', h1, -, h2, -⟩ := C99_step_partial (exState_inv (fun _ => 3) (by decide)) (exState_holds exGasFields fun _ => 3)
    exGas_fits exWork_fits (by decide) true (some fun f l => f (l + 1)) (by simp)
  exact ⟨s', h1, by rw [h2]; decide⟩

/-- The values it gives: the acceleration is that of gas and particles, `-8`; the gas solver sees the density 3 of the gas, so that the
new density is `3 + 3 - 8 = -2`; cooling takes 3 from the new energy `-2`; the criterion sees `-2 + 5`. -/
example : let d := stepSpec exGas exWork (some hydroFields) true none exGasFields.toFinset (fun _ _ => 3)
    (d "gx" (.inl 1), d "rho" (.inl 1), d "e_tot" (.inl 1)) = (-8 * 3, -2 * 3, -5 * 3) := by decide +kernel

/-- A run of MHD: three steps, the second without AMR cycle. -/
example (W : Work (Fin 4 ⊕ Fin 2) ℤ ℤ) (hW : W.extras = []) :
    ∃ s', steps exMhd [⟨W, true, none⟩, ⟨W, false, none⟩, ⟨W, true, some id⟩] (exState exMhdFields fun _ => 1) = some s' ∧
      s'.keys = exMhdFields.toFinset := by
  obtain ⟨s', h1, h2, -⟩ := C99_run_partial (S := exMhd) (by decide) [⟨W, true, none⟩, ⟨W, false, none⟩, ⟨W, true, some id⟩]
    (exState_inv (fun _ => 1) (by decide)) (exState_holds exMhdFields fun _ => 1) exMhd_fits (by simp) (by
      have hf : W.Fits (some glmFields) := by
        intro names _ e he
        rw [hW] at he
        simp at he
      intro e he
      simp only [List.mem_cons, List.not_mem_nil, or_false] at he
      rcases he with rfl | rfl | rfl <;> exact ⟨hf, by simp⟩)
  exact ⟨s', h1, by rw [h2]; decide⟩

/-- Constant gravity, given by the solver. -/
example : step ⟨some .constant, GRAVITY_CST_SCALAR, "HydroUpdate_hancock", false, none, some ["rho"]⟩ exWork true none
    (exState exGasFields fun _ => 3) = none :=
  C99_constant_fails rfl (fun g h => by cases h; rfl) _ _ (by decide) _ _

/-- Without solver the same run goes through. -/
example : (step ⟨none, GRAVITY_CST_SCALAR, "HydroUpdate_hancock", false, none, some ["rho"]⟩ exWork true none
    (exState exGasFields fun _ => 3)).isSome := by decide +kernel

end Verif.StepFields
