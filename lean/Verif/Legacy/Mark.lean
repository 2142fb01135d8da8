import Verif.Legacy.Ranks

/-!
# The older refinement criterion

Model of `RefineCondition_legacy` (`core/src/refine_condition/RefineCondition_legacy.cpp`) with
`MarkOctantsHydroFunctor` (`core/src/legacy/MarkOctantsHydroFunctor.cpp`), as it runs on one rank: the octants are
handled in groups, the arrays of a group keep what the group before left in them, threads split the cells of a block and
append the marked octants to a list in any order. Arithmetic on real numbers is exact; indices are 32 bit numbers where
the code subtracts.
-/

namespace Verif.Legacy

open Verif.Octree Verif.Cells

noncomputable section

variable {d : ℕ}

/-! ### Model -/

/-- `RefineCondition_legacy.cpp` L14-32, with `get_level_min` and `get_level_max` of the mesh (L117). -/
structure MarkPar where
  rp : Hydro.Params
  /-- `std::numeric_limits<real_t>::epsilon()` -/
  eps : ℝ
  errorMin : ℝ
  errorMax : ℝ
  levelMin : ℕ
  levelMax : ℕ
  perGroup : ℕ

/-- What the scheduler decides: how the threads of the team of octant `i` split the cells of the block, in which order
the octants of a group append to the list, and in which order the list is read in `set_markers_pablo`. -/
structure Sched where
  cells : ℕ → List (List ℕ)
  append : ℕ → List ℕ
  set : List (ℕ × ℤ) → List (ℕ × ℤ)

/-- Sizes of the block with ghost cells (`MarkOctantsHydroFunctor.cpp` L76-83); in 2D there are no ghost cells along
`z` and `d` is 2. -/
def ghosted (P : Par d) (i : Fin d) : ℕ := P.b i + 2 * P.w

/-- L117-118 and L124, the distance of neighbours along `k` in the block: 1, `bx_g`, `bx_g*by_g`. -/
def stride (P : Par d) (k : Fin d) : ℕ := ∏ j : Fin k, ghosted P (Fin.castLE k.is_lt.le j)

/-- `ConvertToPrimitivesHydroFunctor.h` L62-68 and L99-155: `Qgroup` of one octant. Indices that are not of a cell of
the ghosted block keep their value. -/
def convert (P : Par d) (rp : Hydro.Params) (B : Block d) (stale : ℕ → State d) (n : ℕ) : State d :=
  if n < ∏ i, ghosted P i then toPrim rp (getCons B (cellOfIndex P n)) else stale n

/-- `MarkOctantsHydroFunctor.cpp` L106-111: from the number of an inner cell to its index in the ghosted block. -/
def innerIndex (P : Par d) (n : ℕ) : ℕ := ∑ i, (indexToCoord P.b n i + P.w) * stride P i

/-- L13-38, `second_derivative_error`. -/
def secondError (eps : ℝ) (q : ℕ → ℝ) (iCell delta : ℕ) : ℝ :=
  let qm := q ((iCell + delta) % 2 ^ 32)
  let qp := q ((iCell + 2 ^ 32 - delta) % 2 ^ 32)
  let fr := qp - q iCell
  let fl := qm - q iCell
  let fc := |qp| + |qm| + 2 * |q iCell|
  |fr + fl| / (|fr| + |fl| + 1 / 100 * fc + eps)

/-- `a > b ? a : b` -/
def larger (a b : ℝ) : ℝ := if a > b then a else b

/-- L115-126: the maximum over the directions for one variable, `fx` first. -/
def alongAll (P : Par d) (eps : ℝ) (Q : ℕ → State d) (iCell : ℕ) (v : HV d) : ℝ :=
  match List.finRange d with
  | [] => 0
  | k :: l => l.foldl (fun m j => larger m (secondError eps (fun n => Q n v) iCell (stride P j)))
      (secondError eps (fun n => Q n v) iCell (stride P k))

/-- L104-130: one cell, density and pressure (`fm[IP]`, the place of the energy). -/
def cellError (P : Par d) (eps : ℝ) (Q : ℕ → State d) (e : ℝ) (n : ℕ) : ℝ :=
  larger (larger e (alongAll P eps Q (innerIndex P n) .rho)) (alongAll P eps Q (innerIndex P n) .e)

/-- L100-131: `parallel_reduce` with `Kokkos::Max`; every thread starts from the smallest number, the results of the
threads are joined. -/
def octError (P : Par d) (eps lowest : ℝ) (Q : ℕ → State d) (chunks : List (List ℕ)) : ℝ :=
  (chunks.map fun l => l.foldl (cellError P eps Q) lowest).foldl larger lowest

/-- L139-155: what is appended for an octant, if anything. -/
def request (MP : MarkPar) (level : ℕ) (error : ℝ) : Option ℤ :=
  let c : ℤ := -1
  let c := if error > MP.errorMin then (if c < 0 then 0 else c) else c
  let c := if error > MP.errorMax then (if c < 1 then 1 else c) else c
  if level < MP.levelMax ∧ c = 1 then some 1
  else if level > MP.levelMin ∧ c = -1 then some (-1)
  else none

/-- The arrays of a group and the list of marked octants. -/
structure MarkState (d : ℕ) where
  U : ℕ → Block d
  Q : ℕ → ℕ → State d
  list : List (ℕ × ℤ)

/-- L48-54, `push_back`; the arrays of the list have `cap` entries, writing behind them is an error. -/
def pushBack (cap : ℕ) (l : List (ℕ × ℤ)) (i : ℕ) (m : ℤ) : Option (List (ℕ × ℤ)) :=
  if l.length < cap then some (l ++ [(i, m)]) else none

/-- L92 and `ConvertToPrimitivesHydroFunctor.h` L88: octants in group `g`. -/
def inGroup (MP : MarkPar) (n g : ℕ) : ℕ := min MP.perGroup (n - g * MP.perGroup)

/-- `RefineCondition_legacy.cpp` L75-112: fill the blocks of group `g` and convert them. -/
def fillGroup (P : Par d) (MP : MarkPar) (M : Finset (Oct d)) (U : Mesh d) (octs : List (Oct d)) (g : ℕ)
    (s : MarkState d) : Option (MarkState d) :=
  (List.range (inGroup MP octs.length g)).foldlM (fun s i =>
    octs[g * MP.perGroup + i]?.bind fun o =>
      (fillGhosts P M U o (s.U i)).map fun B =>
        { s with U := Function.update s.U i B, Q := Function.update s.Q i (convert P MP.rp B (s.Q i)) }) s

/-- L116-123: `MarkOctantsHydroFunctor::apply` for group `g`. -/
def markGroup (P : Par d) (MP : MarkPar) (lowest : ℝ) (octs : List (Oct d)) (sc : Sched) (g : ℕ) (s : MarkState d) :
    Option (MarkState d) :=
  (sc.append g).foldlM (fun s i =>
    octs[g * MP.perGroup + i]?.bind fun o =>
      match request MP o.level (octError P MP.eps lowest (s.Q i) (sc.cells (g * MP.perGroup + i))) with
      | none => some s
      | some m => (pushBack octs.length s.list (g * MP.perGroup + i) m).map fun l => { s with list := l }) s

/-- L67: `nbGroup`, in 32 bits. -/
def nbGroup (MP : MarkPar) (n : ℕ) : ℕ := ((n + MP.perGroup - 1) % 2 ^ 32) / MP.perGroup

/-- L69-127, the loop over the groups. -/
def markLoop (P : Par d) (MP : MarkPar) (lowest : ℝ) (M : Finset (Oct d)) (U : Mesh d) (octs : List (Oct d)) (sc : Sched)
    (s : MarkState d) : Option (MarkState d) :=
  (List.range (nbGroup MP octs.length)).foldlM (fun s g =>
    (fillGroup P MP M U octs g s).bind (markGroup P MP lowest octs sc g)) s

/-- `MarkOctantsHydroFunctor.cpp` L185-199, `set_markers_pablo`: the markers of the mesh, 0 before (`adapt` and
`loadBalance` create them anew), are set one by one. -/
def setMarkers (l : List (ℕ × ℤ)) : ℕ → ℤ := l.foldl (fun a p => Function.update a p.1 p.2) 0

/-- `mark_cells`, L35-130; `s` is what the new arrays contain, the list is empty. -/
def markCells (P : Par d) (MP : MarkPar) (lowest : ℝ) (M : Finset (Oct d)) (U : Mesh d) (octs : List (Oct d)) (sc : Sched)
    (s : MarkState d) : Option (ℕ → ℤ) :=
  (markLoop P MP lowest M U octs sc { s with list := [] }).map fun s => setMarkers (sc.set s.list)

/-! ### Specification -/

/-- The relative second difference of three values in a row. -/
def curvature (eps ql qc qr : ℝ) : ℝ :=
  |ql - 2 * qc + qr| / (|qr - qc| + |qc - ql| + (|ql| + 2 * |qc| + |qr|) / 100 + eps)

/-- Some cell of the block has, along some direction, a density or a pressure with a curvature above `t`. -/
def Rough (b : Fin d → ℕ) (eps t : ℝ) (q : (Fin d → ℤ) → State d) : Prop :=
  ∃ p : Fin d → ℤ, (∀ i, 0 ≤ p i ∧ p i < b i) ∧ ∃ v, (v = .rho ∨ v = .e) ∧ ∃ k,
    t < curvature eps (q (p - Pi.single k 1) v) (q p v) (q (p + Pi.single k 1) v)

/-- `m` is the marker of an octant of a level with primitive values `q` in and around its block. -/
def IsMark (b : Fin d → ℕ) (MP : MarkPar) (level : ℕ) (q : (Fin d → ℤ) → State d) (m : ℤ) : Prop :=
  (m = 1 ↔ level < MP.levelMax ∧ Rough b MP.eps MP.errorMax q) ∧
  (m = -1 ↔ MP.levelMin < level ∧ ¬Rough b MP.eps MP.errorMin q ∧ ¬Rough b MP.eps MP.errorMax q) ∧
  (m = 1 ∨ m = 0 ∨ m = -1)

/-- Every cell is in one chunk, every octant of a group appends once, the whole list is read. -/
structure Sched.Ok (sc : Sched) (P : Par d) (MP : MarkPar) (n : ℕ) : Prop where
  cells : ∀ i, (sc.cells i).flatten.Perm (List.range (∏ k, P.b k))
  append : ∀ g, (sc.append g).Perm (List.range (inGroup MP n g))
  set : ∀ l, (sc.set l).Perm l

end

end Verif.Legacy
