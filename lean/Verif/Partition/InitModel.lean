import Verif.Octree.Order

/-!
# Model of the construction of the initial mesh

`core/src/amr/AMRmesh_hashmap_new.cpp` L42-194.
-/

namespace Verif.Partition

open Verif.Octree Verif.Morton

variable {d : ℕ}

/-- `morton_extract_coord` for all coordinates at once: bit `d*k + c` of the key is bit `k` of
coordinate `c`; `n` bits per coordinate. The bit-exact function is `Verif.Morton.extract2`,
`extract3`. -/
def decode (d : ℕ) : ℕ → ℕ → Fin d → ℕ
  | 0, _ => fun _ => 0
  | n + 1, m => fun c => 2 * decode d n (m / 2 ^ d) c + m % 2 ^ d / 2 ^ (c : ℕ) % 2

/-- L49: the product of the coarse sizes, computed in `uint32_t`. -/
def totalOcts (G : Grid d) : ℕ := (∏ i, G.coarse i) % 2 ^ 32

/-- L89-91: first global index of a rank. No 64-bit overflow. -/
def firstLocal (G : Grid d) (P r : ℕ) : ℕ := r * totalOcts G / P

/-- L114-122 and L147-155: the coordinates of a key are inside the coarse grid. Keys here are at most
`2^(d*lmin)`, so `lmin+1` bits per coordinate suffice. -/
def inGrid (G : Grid d) (m : ℕ) : Bool := decide (∀ i, decode d (G.lmin + 1) m i < G.coarse i)

/-- L96-98: the coarse grid is the full cube. -/
def isFullCube (G : Grid d) : Bool := decide (∀ i, G.coarse i = 2 ^ G.lmin)

/-- L107-109. -/
def mortonMax (G : Grid d) : ℕ := zkey d d G.lmin (fun i => G.coarse i - 1) + 1

/-- L110-129: the key at which the running count of keys in the grid is `f`; 0 (the initial value of
the view) if there is none. The parallel scan is its sequential meaning. -/
def scanFirst (G : Grid d) (f : ℕ) : ℕ :=
  ((List.range (mortonMax G)).find? fun m =>
    inGrid G m && decide (((List.range m).filter (inGrid G)).length = f)).getD 0

/-- L94-135: `morton_intervals`. -/
def initIntervals (G : Grid d) (P : ℕ) : ℕ → ℕ :=
  if isFullCube G then fun i => i * totalOcts G / P
  else fun i => if i < P then scanFirst G (firstLocal G P i) else mortonMax G

/-- L137-163: local octants; `none` if the assertion of L163 fails. -/
def initLocal (G : Grid d) (P r : ℕ) : Option (List (Oct d)) :=
  let I := initIntervals G P
  let l := ((List.range' (I r) (I (r + 1) - I r)).filter (inGrid G)).map fun m =>
    (⟨G.lmin, decode d (G.lmin + 1) m⟩ : Oct d)
  if l.length = firstLocal G P (r + 1) - firstLocal G P r then some l else none

/-- L167-178: the intervals as keys with `e` bits per level (3 in the code, also in 2D). -/
def initIntervals3 (e : ℕ) (G : Grid d) (P : ℕ) (i : ℕ) : ℕ :=
  zkey d e (G.lmin + 1) (decode d (G.lmin + 1) (initIntervals G P i))

end Verif.Partition
