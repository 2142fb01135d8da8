import Mathlib.Data.List.Perm.Basic
import Mathlib.Logic.Function.Basic
import Mathlib.Order.Lattice
import Mathlib.Data.Fin.VecNotation
import Mathlib.Algebra.Order.Group.Int
import Mathlib.Tactic.Linarith
import Mathlib.Tactic.FinCases
import Mathlib.Data.Fintype.Basic

/-!
# C52: from criteria of cells to markers of octants

Model of `mark_cells_aux` and `set_markers` (`core/src/refine_condition/RefineCondition_helper.h` L14-37, L61-87) and of
the same loop in `RefineCondition_second_derivative_error.cpp` L103-172. The criterion is an arbitrary function.
-/

namespace Verif.Refine

variable {C : Type}

/-! ### Model -/

/-- `RefineCondition_base.h` L15-20, `Marker`. -/
def coarsen : ℤ := -1
def noChange : ℤ := 0
def refine : ℤ := 1

/-- `RefineCondition_mass.cpp` L38-44 and the same lines of the other criteria. `none` is NaN, all comparisons with it are
false. -/
def criterion {K : Type} [LT K] [LE K] [DecidableLT K] [DecidableLE K] (v : Option K) (tRefine tCoarsen : K) : ℤ :=
  match v with
  | some v => if v > tRefine then refine else if v ≤ tCoarsen then coarsen else noChange
  | none => noChange

/-- One `Kokkos::atomic_fetch_max( &oct_marker_max(iOct), marker )`. -/
def fetchMax (a : ℕ → ℤ) (iOct : ℕ) (marker : ℤ) : ℕ → ℤ := Function.update a iOct (max (a iOct) marker)

/-- The loop over cells; `order` is the order in which the atomic updates happen. A cell is an octant and the place
`C` in its block. -/
def markLoop (getMarker : ℕ → C → ℤ) (init : ℤ) (order : List (ℕ × C)) : ℕ → ℤ :=
  order.foldl (fun a p => fetchMax a p.1 (getMarker p.1 p.2)) fun _ => init

/-- L20-33, the body of `adjust_markers`. -/
def adjust (levelMin levelMax : ℤ) (level : ℕ) (c : ℤ) : ℤ :=
  let c := if level ≥ levelMax ∧ c = refine then noChange else c
  if level ≤ levelMin ∧ c = coarsen then noChange else c

/-- `mark_cells_aux` L61-87 of the helper: the markers start at -1. -/
def markCells (getMarker : ℕ → C → ℤ) (levelMin levelMax : ℤ) (level : ℕ → ℕ) (order : List (ℕ × C)) (iOct : ℕ) : ℤ :=
  adjust levelMin levelMax (level iOct) (markLoop getMarker coarsen order iOct)

/-- `RefineCondition_second_derivative_error.cpp` L103-172: the view is created filled with 0 and not filled with -1. -/
def markCellsSecondDerivative (getMarker : ℕ → C → ℤ) (levelMin levelMax : ℤ) (level : ℕ → ℕ) (order : List (ℕ × C))
    (iOct : ℕ) : ℤ :=
  adjust levelMin levelMax (level iOct) (markLoop getMarker noChange order iOct)

/-! ### Specification -/

/-- `order` lists every cell of every octant, in any order. -/
def Complete (n : ℕ) (cells : C → Prop) (order : List (ℕ × C)) : Prop :=
  ∀ i x, (i, x) ∈ order ↔ i < n ∧ cells x

/-- The criterion gives one of the three markers. -/
def ThreeValued (getMarker : ℕ → C → ℤ) : Prop := ∀ i x, getMarker i x = -1 ∨ getMarker i x = 0 ∨ getMarker i x = 1

/-! ### Proofs -/

theorem criterion_three {K : Type} [LT K] [LE K] [DecidableLT K] [DecidableLE K] (v : Option K) (t t' : K) :
    criterion v t t' = -1 ∨ criterion v t t' = 0 ∨ criterion v t t' = 1 := by
  unfold criterion refine coarsen noChange
  cases v with
  | none => simp
  | some v => simp only; split_ifs <;> simp

theorem foldl_le (getMarker : ℕ → C → ℤ) (order : List (ℕ × C)) (i : ℕ) (t : ℤ) : ∀ a : ℕ → ℤ,
    order.foldl (fun a p => fetchMax a p.1 (getMarker p.1 p.2)) a i ≤ t ↔
      a i ≤ t ∧ ∀ x, (i, x) ∈ order → getMarker i x ≤ t := by
  induction order with
  | nil => intro a; simp
  | cons p l ih =>
    intro a
    obtain ⟨k, y⟩ := p
    rw [List.foldl_cons, ih]
    by_cases h : k = i
    · subst h
      unfold fetchMax
      rw [Function.update_self, max_le_iff]
      constructor
      · rintro ⟨⟨h1, h2⟩, h3⟩
        refine ⟨h1, fun x hx => ?_⟩
        rcases List.mem_cons.1 hx with hx | hx
        · cases hx; exact h2
        · exact h3 x hx
      · rintro ⟨h1, h2⟩
        exact ⟨⟨h1, h2 y (List.mem_cons_self ..)⟩, fun x hx => h2 x (List.mem_cons_of_mem _ hx)⟩
    · unfold fetchMax
      rw [Function.update_of_ne (Ne.symm h)]
      constructor
      · rintro ⟨h1, h3⟩
        refine ⟨h1, fun x hx => ?_⟩
        rcases List.mem_cons.1 hx with hx | hx
        · cases hx; exact absurd rfl h
        · exact h3 x hx
      · rintro ⟨h1, h2⟩
        exact ⟨h1, fun x hx => h2 x (List.mem_cons_of_mem _ hx)⟩

variable {getMarker : ℕ → C → ℤ} {levelMin levelMax : ℤ} {level : ℕ → ℕ} {n : ℕ} {cells : C → Prop}
  {order : List (ℕ × C)}

theorem markLoop_le (h : Complete n cells order) {i : ℕ} (hi : i < n) (init t : ℤ) :
    markLoop getMarker init order i ≤ t ↔ init ≤ t ∧ ∀ x, cells x → getMarker i x ≤ t := by
  unfold markLoop
  rw [foldl_le]
  refine and_congr_right fun _ => forall_congr' fun x => ?_
  rw [h i x]
  exact ⟨fun h1 h2 => h1 ⟨hi, h2⟩, fun h1 h2 => h1 h2.2⟩

theorem markLoop_range (h : Complete n cells order) (h3 : ThreeValued getMarker) {i : ℕ} (hi : i < n) {init : ℤ}
    (h0 : init = -1 ∨ init = 0) : -1 ≤ markLoop getMarker init order i ∧ markLoop getMarker init order i ≤ 1 := by
  constructor
  · have h := ((markLoop_le (getMarker := getMarker) h hi init _).1 le_rfl).1
    omega
  · rw [markLoop_le h hi]
    refine ⟨by omega, fun x _ => ?_⟩
    have := h3 i x
    omega

/-- C52 (refinement): an octant is marked for refinement iff some cell requests it and it is below the maximal
level. -/
theorem C52_refine (h : Complete n cells order) (h3 : ThreeValued getMarker) {i : ℕ} (hi : i < n) :
    markCells getMarker levelMin levelMax level order i = 1 ↔
      (∃ x, cells x ∧ getMarker i x = 1) ∧ (level i : ℤ) < levelMax := by
  have hr := markLoop_range h h3 hi (Or.inl rfl)
  have h1 := markLoop_le (getMarker := getMarker) h hi (-1) 0
  have key : markLoop getMarker (-1) order i = 1 ↔ ∃ x, cells x ∧ getMarker i x = 1 := by
    constructor
    · intro e
      by_contra hne
      push Not at hne
      have : markLoop getMarker (-1) order i ≤ 0 := h1.2 ⟨by decide, fun x hx => by
        have := h3 i x
        have := hne x hx
        omega⟩
      omega
    · rintro ⟨x, hx, e⟩
      by_contra hne
      have h2 := (h1.1 (by omega)).2 x hx
      omega
  unfold markCells adjust refine coarsen noChange
  rw [← key]
  generalize markLoop getMarker (-1) order i = m at *
  simp only
  split_ifs <;> omega

/-- C52 (coarsening): an octant is marked for coarsening iff all cells request it and it is above the minimal
level. -/
theorem C52_coarsen (h : Complete n cells order) (h3 : ThreeValued getMarker) {i : ℕ} (hi : i < n) :
    markCells getMarker levelMin levelMax level order i = -1 ↔
      (∀ x, cells x → getMarker i x = -1) ∧ levelMin < (level i : ℤ) := by
  have hr := markLoop_range h h3 hi (Or.inl rfl)
  have h1 := markLoop_le (getMarker := getMarker) h hi (-1) (-1)
  have key : markLoop getMarker (-1) order i = -1 ↔ ∀ x, cells x → getMarker i x = -1 := by
    constructor
    · intro e x hx
      have := (h1.1 (by omega)).2 x hx
      have := h3 i x
      omega
    · intro e
      have := h1.2 ⟨le_rfl, fun x hx => le_of_eq (e x hx)⟩
      omega
  unfold markCells adjust refine coarsen noChange
  rw [← key]
  generalize markLoop getMarker (-1) order i = m at *
  simp only
  split_ifs <;> first | omega | (rw [false_iff]; omega)

/-- C52 (order): the markers do not depend on the order of the updates, and keep octants in the level range. -/
theorem C52_order_and_range (h : Complete n cells order) (h3 : ThreeValued getMarker) {order' : List (ℕ × C)}
    (h' : Complete n cells order') {i : ℕ} (hi : i < n) :
    markCells getMarker levelMin levelMax level order i = markCells getMarker levelMin levelMax level order' i ∧
      (levelMin ≤ level i → (level i : ℤ) ≤ levelMax →
        levelMin ≤ level i + markCells getMarker levelMin levelMax level order i ∧
        level i + markCells getMarker levelMin levelMax level order i ≤ levelMax) := by
  constructor
  · unfold markCells
    congr 1
    apply le_antisymm
    · rw [markLoop_le h hi, ← markLoop_le h' hi]
    · rw [markLoop_le h' hi, ← markLoop_le h hi]
  · intro h1 h2
    have hr := markLoop_range (getMarker := getMarker) h h3 hi (Or.inl rfl)
    unfold markCells adjust refine coarsen noChange
    change levelMin ≤ _ + _ ∧ _ + _ ≤ levelMax
    generalize markLoop getMarker (-1) order i = m at *
    simp only
    split_ifs <;> omega

/-- C52 for `RefineCondition_second_derivative_error`. Missing: coarsening, see the next theorem. -/
theorem C52_second_derivative_partial (h : Complete n cells order) (h3 : ThreeValued getMarker) {i : ℕ} (hi : i < n) :
    markCellsSecondDerivative getMarker levelMin levelMax level order i = 1 ↔
      (∃ x, cells x ∧ getMarker i x = 1) ∧ (level i : ℤ) < levelMax := by
  have hr := markLoop_range h h3 hi (Or.inr rfl)
  have h1 := markLoop_le (getMarker := getMarker) h hi 0 0
  have key : markLoop getMarker 0 order i = 1 ↔ ∃ x, cells x ∧ getMarker i x = 1 := by
    constructor
    · intro e
      by_contra hne
      push Not at hne
      have : markLoop getMarker 0 order i ≤ 0 := h1.2 ⟨le_rfl, fun x hx => by
        have := h3 i x
        have := hne x hx
        omega⟩
      omega
    · rintro ⟨x, hx, e⟩
      by_contra hne
      have h2 := (h1.1 (by omega)).2 x hx
      omega
  unfold markCellsSecondDerivative adjust refine coarsen noChange
  rw [← key]
  generalize markLoop getMarker 0 order i = m at *
  simp only
  split_ifs <;> omega

/-- C52 (disagreement): `RefineCondition_second_derivative_error` never marks an octant for coarsening, whatever its
cells request. -/
theorem C52_second_derivative_fails (getMarker : ℕ → C → ℤ) (levelMin levelMax : ℤ) (level : ℕ → ℕ)
    (order : List (ℕ × C)) (i : ℕ) :
    markCellsSecondDerivative getMarker levelMin levelMax level order i ≠ -1 := by
  have h : 0 ≤ markLoop getMarker 0 order i := by
    have := (foldl_le getMarker order i (markLoop getMarker 0 order i) fun _ => 0).1 le_rfl
    exact this.1
  unfold markCellsSecondDerivative adjust refine coarsen noChange
  generalize markLoop getMarker 0 order i = m at *
  simp only
  split_ifs <;> omega

/-- C52 (criteria): the thresholds. A cell whose value is above the refinement threshold requests refinement, also
when the coarsening threshold is the larger one; a NaN requests no change. -/
theorem C52_criterion {K : Type} [LinearOrder K] (v t t' : K) :
    (criterion (some v) t t' = 1 ↔ t < v) ∧ (criterion (some v) t t' = -1 ↔ v ≤ t ∧ v ≤ t') ∧
      criterion (none : Option K) t t' = 0 := by
  unfold criterion refine coarsen noChange
  refine ⟨?_, ?_, rfl⟩
  · simp only; split_ifs with h1 h2 <;> simp_all
  · simp only; split_ifs with h1 h2 <;> simp_all

/-! ### Examples -/

/-- Two octants with two cells: in the first one cell asks for refinement, in the second all ask for coarsening. -/
def exMarker (i : ℕ) (x : Fin 2) : ℤ := if i = 0 then (if x = 0 then 1 else -1) else -1

example : markCells exMarker 1 3 (fun _ => 2) [(0, 0), (0, 1), (1, 0), (1, 1)] 0 = 1 ∧
    markCells exMarker 1 3 (fun _ => 2) [(1, 1), (0, 1), (1, 0), (0, 0)] 0 = 1 ∧
    markCells exMarker 1 3 (fun _ => 2) [(0, 0), (0, 1), (1, 0), (1, 1)] 1 = -1 ∧
    markCells exMarker 2 2 (fun _ => 2) [(0, 0), (0, 1), (1, 0), (1, 1)] 0 = 0 ∧
    markCells exMarker 2 2 (fun _ => 2) [(0, 0), (0, 1), (1, 0), (1, 1)] 1 = 0 ∧
    markCellsSecondDerivative exMarker 1 3 (fun _ => 2) [(0, 0), (0, 1), (1, 0), (1, 1)] 1 = 0 := by
  decide

theorem ex_complete : Complete 2 (fun _ : Fin 2 => True) [(0, 0), (0, 1), (1, 0), (1, 1)] := by
  intro i x
  fin_cases x <;> simp <;> omega

theorem ex_three : ThreeValued exMarker := by
  intro i x
  unfold exMarker
  split_ifs <;> simp

/-- The hypotheses of the theorems hold here. -/
example : markCells exMarker 1 3 (fun _ => 2) [(0, 0), (0, 1), (1, 0), (1, 1)] 1 = -1 :=
  (C52_coarsen ex_complete ex_three (by decide)).2 ⟨by decide, by decide⟩

end Verif.Refine
