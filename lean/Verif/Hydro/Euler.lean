import Verif.Flux.Patch
import Verif.Hydro.OneNeighbor
import Verif.Hydro.Slope

/-!
# C45: the update of `HydroUpdate_euler`

Model of `euler_update` (`core/src/hydro/HydroUpdate_utils.h` L362-625) and of the calls in
`core/src/hydro/HydroUpdate_euler.cpp` L187-224 for one conserved variable, without the gravity source and
without the special treatment of boundaries (L571-598). The conversion to primitive variables, the
Riemann solver, the floor on the density, the mean of smaller cells and the boundary values are
arbitrary functions. Arithmetic is exact.
-/

namespace Verif.Hydro.Euler

open Verif.Octree Verif.Cells Verif.Flux Verif.Hydro

variable {d : ℕ} {K ι V : Type} [Field K] [LinearOrder K]

/-! ### Model -/

/-- The functions the scheme is built from; `ι` are the primitive variables. `post` is the floor on the
density (`HydroUpdate_utils.h` L106), `flux` the Riemann solver along a direction. `shift` is absent without
the well-balanced option; with it, it is the change of the pressure over a distance (L145-152). -/
structure Scheme (d : ℕ) (K ι V : Type) where
  toPrim : V → ι → K
  post : (ι → K) → ι → K
  flux : Fin d → (ι → K) → (ι → K) → K
  shift : Option (Fin d → (ι → K) → K → ι → K) := none

/-- `compute_slope` L67-86 for all variables. -/
def slope (qMinus q qPlus : ι → K) (dL dR : K) (i : ι) : K := computeSlope (qMinus i) (q i) (qPlus i) dL dR

/-- `reconstruct_lin_state` L99-108. -/
def reconstruct (E : Scheme d K ι V) (q sl : ι → K) (sign size : K) : ι → K :=
  E.post fun i => reconstructLin (q i) (sl i) sign size

/-- `compute_euler_flux` L126-167. -/
def eulerFlux (E : Scheme d K ι V) (j : Fin d) (l r sl sr : ι → K) (dL dR size : K) : K :=
  match E.shift with
  | some f => E.flux j (f j l (size * (1 / 2))) (f j r (-(size * (1 / 2))))
  | none => E.flux j (reconstruct E l sl 1 dL) (reconstruct E r sr (-1) dR)

/-- L503, L541. -/
def fac (d : ℕ) : K := if d = 2 then 1 / 2 else 1 / 4

/-- Cell `x` of the block, moved by `t` in direction `j`, in the patch (`ib + offset`). -/
def nextTo (I : Source d V) (G : Grid d) (M : Finset (Oct d)) (b : Fin d → ℕ) (o : Oct d) (x : Fin d → ℕ)
    (j : Fin d) (t : ℤ) : Option V :=
  patchRead I G M b o fun k => (x k : ℤ) + faceOff j t k

/-- L480-521, the flux through the left interface in direction `j` of cell `x` of octant `o`. -/
def ifaceL (E : Scheme d K ι V) (I : Source d V) (D : Domain d) (G : Grid d) (M : Finset (Oct d)) (b : Fin d → ℕ) (o : Oct d)
    (x : Fin d → ℕ) (j : Fin d) : Option K :=
  (patchRead I G M b o fun k => x k).bind fun uC => (nextTo I G M b o x j (-1)).bind fun uL =>
  (nextTo I G M b o x j 1).bind fun uR =>
  (getNeighborGhost G M ⟨o, x, b, .localToBlock⟩ (faceOff j (-1))).bind fun rL =>
  (getNeighborGhost G M ⟨o, x, b, .localToBlock⟩ (faceOff j 1)).bind fun rR =>
    let qC := E.toPrim uC
    let qL := E.toPrim uL
    let qR := E.toPrim uR
    let ds := dsFactors rL.levelDiff
    let df := dfFactors rL.levelDiff
    let size : K := (getCellSize D G ⟨o, x, b, .localToBlock⟩ j : ℚ)
    if rL.levelDiff ≥ 0 then
      (if rL.levelDiff > 0 then (getNeighbor rL (faceOff j (-1))).map fun p => I.U p.oct p.idx
        else nextTo I G M b o x j (-2)).map fun uLL =>
          eulerFlux E j qL qC (slope (E.toPrim uLL) qL qC ds.1 ds.2) (slope qL qC qR ds.2 1) df.1 df.2 size
    else
      ((loops fun k => if faceOff j (-1) k = 0 then [(0 : ℤ), 1] else [0]).mapM fun δ =>
        (getNeighborGhost G M rL δ).bind fun n => (getNeighbor n (faceOff j (-1))).map fun m =>
          let qL := E.toPrim (I.U n.oct n.idx)
          let qLL := E.toPrim (I.U m.oct m.idx)
          eulerFlux E j qL qC (slope qLL qL qC ds.1 ds.2) (slope qL qC qR ds.2 (dsFactors rR.levelDiff).2)
            df.1 df.2 size).map fun l => l.sum * fac d

/-- L523-560, the flux through the right interface. -/
def ifaceR (E : Scheme d K ι V) (I : Source d V) (D : Domain d) (G : Grid d) (M : Finset (Oct d)) (b : Fin d → ℕ) (o : Oct d)
    (x : Fin d → ℕ) (j : Fin d) : Option K :=
  (patchRead I G M b o fun k => x k).bind fun uC => (nextTo I G M b o x j 1).bind fun uR =>
  (nextTo I G M b o x j (-1)).bind fun uL =>
  (getNeighborGhost G M ⟨o, x, b, .localToBlock⟩ (faceOff j 1)).bind fun rR =>
  (getNeighborGhost G M ⟨o, x, b, .localToBlock⟩ (faceOff j (-1))).bind fun rL =>
    let qC := E.toPrim uC
    let qL := E.toPrim uL
    let qR := E.toPrim uR
    let ds := dsFactors rR.levelDiff
    let df := dfFactors rR.levelDiff
    let size : K := (getCellSize D G ⟨o, x, b, .localToBlock⟩ j : ℚ)
    if rR.levelDiff ≥ 0 then
      (if rR.levelDiff > 0 then (getNeighbor rR (faceOff j 1)).map fun p => I.U p.oct p.idx
        else nextTo I G M b o x j 2).map fun uRR =>
          eulerFlux E j qC qR (slope qL qC qR 1 ds.2) (slope qC qR (E.toPrim uRR) ds.2 ds.1) df.2 df.1 size
    else
      ((loops fun k => if faceOff j 1 k = 0 then [(0 : ℤ), 1] else [0]).mapM fun δ =>
        (getNeighborGhost G M rR δ).bind fun n => (getNeighbor n (faceOff j 1)).map fun m =>
          let qR := E.toPrim (I.U n.oct n.idx)
          let qRR := E.toPrim (I.U m.oct m.idx)
          eulerFlux E j qC qR (slope qL qC qR (dsFactors rL.levelDiff).2 ds.2) (slope qC qR qRR ds.2 ds.1)
            df.2 df.1 size).map fun l => l.sum * fac d

/-- `HydroUpdate_euler.cpp` L187-224: the patch is filled, then the fluxes in all directions are added to
the variable `u` of cell `x` (L600-602 of `HydroUpdate_utils.h`). -/
def updateCell (E : Scheme d K ι V) (I : Source d V) (D : Domain d) (G : Grid d) (M : Finset (Oct d))
    (b : Fin d → ℕ) (dt u : K) (o : Oct d) (x : Fin d → ℕ) : Option K :=
  ((loops fun k => List.range (b k + 2 * 2)).mapM (patchVal I G M b o)).bind fun _ =>
    ((List.finRange d).mapM fun j =>
      (ifaceL E I D G M b o x j).bind fun fL => (ifaceR E I D G M b o x j).map fun fR =>
        (fL - fR) * (dt / (getCellSize D G ⟨o, x, b, .localToBlock⟩ j : ℚ))).map fun l => u + l.sum

/-! ### Fluxes between cells -/

variable {G : Grid d} {M : Finset (Oct d)} {b : Fin d → ℕ}

/-- The state next to cell `x`, in the patch. -/
def beyond (E : Scheme d K ι V) (I : Source d V) (G : Grid d) (M : Finset (Oct d)) (b : Fin d → ℕ) (o : Oct d)
    (x : Fin d → ℕ) (j : Fin d) (t : ℤ) : ι → K :=
  match nextTo I G M b o x j t with
  | some u => E.toPrim u
  | none => fun _ => 0

/-- Distance between the middles of two neighbours, in sizes of the first. -/
def dist (own other : ℕ) : K := if other = own then 1 else if other < own then 3 / 2 else 3 / 4

/-- A state reconstructed at the face on side `s`, from the state of the cell `qc`, that of the
neighbour on that side, `qn`, at distance `h`, and the state on the other side, `w`. -/
def faceOf (E : Scheme d K ι V) (s : ℤ) (qc qn w : ι → K) (h : K) : ι → K :=
  if s = 1 then reconstruct E qc (slope w qc qn 1 h) 1 (1 / 2)
  else reconstruct E qc (slope qn qc w h 1) (-1) (1 / 2)

/-- The state of cell `c` at its face with `q`. -/
noncomputable def faceState (E : Scheme d K ι V) (I : Source d V) (G : Grid d) (M : Finset (Oct d))
    (b : Fin d → ℕ) (c q : Oct d) (j : Fin d) (s : ℤ) : ι → K :=
  faceOf E s (E.toPrim (I.U (unbox b M c).1 (unbox b M c).2)) (E.toPrim (I.U (unbox b M q).1 (unbox b M q).2))
    (beyond E I G M b (unbox b M c).1 (unbox b M c).2 j (-s)) (dist c.level q.level)

/-- The flux from `c` to its upper neighbour `q`. -/
noncomputable def pairFlux (E : Scheme d K ι V) (I : Source d V) (G : Grid d) (M : Finset (Oct d))
    (b : Fin d → ℕ) (j : Fin d) (c q : Oct d) : K :=
  E.flux j (faceState E I G M b c q j 1) (faceState E I G M b q c j (-1))

/-- The flux with the states in order. -/
def orient (E : Scheme d K ι V) (j : Fin d) (s : ℤ) (qc qn : ι → K) : K :=
  if s = 1 then E.flux j qc qn else E.flux j qn qc

/-- Flux through a boundary: the ghosts have the size of the cell. -/
def boundaryFlux (E : Scheme d K ι V) (I : Source d V) (G : Grid d) (M : Finset (Oct d)) (b : Fin d → ℕ)
    (o : Oct d) (x : Fin d → ℕ) (j : Fin d) (s : ℤ) : K :=
  orient E j s (faceOf E s (E.toPrim (I.U o x)) (beyond E I G M b o x j s) (beyond E I G M b o x j (-s)) 1)
    (faceOf E (-s) (beyond E I G M b o x j s) (E.toPrim (I.U o x)) (beyond E I G M b o x j (2 * s)) 1)

/-! ### One interface -/

/-- Both interfaces in one formula: `n` is the neighbour on side `s`. -/
def side2 (E : Scheme d K ι V) (j : Fin d) (s : ℤ) (qc qn qnn qo : ι → K) (ds df : K × K) (dno size : K) : K :=
  if s = 1 then eulerFlux E j qc qn (slope qo qc qn dno ds.2) (slope qc qn qnn ds.2 ds.1) df.2 df.1 size
  else eulerFlux E j qn qc (slope qnn qn qc ds.1 ds.2) (slope qn qc qo ds.2 dno) df.1 df.2 size

def iface (E : Scheme d K ι V) (I : Source d V) (D : Domain d) (G : Grid d) (M : Finset (Oct d)) (b : Fin d → ℕ) (o : Oct d)
    (x : Fin d → ℕ) (j : Fin d) (s : ℤ) : Option K :=
  (patchRead I G M b o fun k => x k).bind fun uC => (nextTo I G M b o x j s).bind fun un =>
  (nextTo I G M b o x j (-s)).bind fun uo =>
  (getNeighborGhost G M ⟨o, x, b, .localToBlock⟩ (faceOff j s)).bind fun rn =>
  (getNeighborGhost G M ⟨o, x, b, .localToBlock⟩ (faceOff j (-s))).bind fun ro =>
    if rn.levelDiff ≥ 0 then
      (if rn.levelDiff > 0 then (getNeighbor rn (faceOff j s)).map fun p => I.U p.oct p.idx
        else nextTo I G M b o x j (2 * s)).map fun unn =>
          side2 E j s (E.toPrim uC) (E.toPrim un) (E.toPrim unn) (E.toPrim uo) (dsFactors rn.levelDiff)
            (dfFactors rn.levelDiff) 1 (getCellSize D G ⟨o, x, b, .localToBlock⟩ j : ℚ)
    else
      ((loops fun k => if faceOff j s k = 0 then [(0 : ℤ), 1] else [0]).mapM fun δ =>
        (getNeighborGhost G M rn δ).bind fun n => (getNeighbor n (faceOff j s)).map fun m =>
          side2 E j s (E.toPrim uC) (E.toPrim (I.U n.oct n.idx)) (E.toPrim (I.U m.oct m.idx)) (E.toPrim uo)
            (dsFactors rn.levelDiff) (dfFactors rn.levelDiff) (dsFactors ro.levelDiff).2 (getCellSize D G ⟨o, x, b, .localToBlock⟩ j : ℚ)).map
              fun l => l.sum * fac d

theorem ifaceR_eq (E : Scheme d K ι V) (I : Source d V) (D : Domain d) (o : Oct d) (x : Fin d → ℕ) (j : Fin d) :
    ifaceR E I D G M b o x j = iface E I D G M b o x j 1 := rfl

theorem ifaceL_eq (E : Scheme d K ι V) (I : Source d V) (D : Domain d) (o : Oct d) (x : Fin d → ℕ) (j : Fin d) :
    ifaceL E I D G M b o x j = iface E I D G M b o x j (-1) := rfl

variable [IsStrictOrderedRing K]

/-- Changing the unit of length does not change the reconstructed state. -/
theorem reconstruct_scale (E : Scheme d K ι V) (a q c : ι → K) (sign : K) {k dL dR h dL' dR' h' : K}
    (hk : 0 < k) (h1 : dL' = k * dL) (h2 : dR' = k * dR) (h3 : h' = k * h) :
    reconstruct E q (slope a q c dL' dR') sign h' = reconstruct E q (slope a q c dL dR) sign h := by
  subst h1 h2 h3
  unfold reconstruct slope
  congr 1
  funext i
  unfold reconstructLin
  rw [computeSlope_scale hk]
  field_simp

/-- What an interface contributes, with each cell in its own unit of length. -/
theorem side2_eq (E : Scheme d K ι V) (hE : E.shift = none) (size : K) (j : Fin d) {s : ℤ} (hs : s = 1 ∨ s = -1) (qc qn qnn qo : ι → K) {lc ln : ℕ}
    {ldiff : ℤ} (h : ldiff = 0 ∧ ln = lc ∨ ldiff = 1 ∧ ln + 1 = lc ∨ ldiff = -1 ∧ ln = lc + 1) :
    side2 E j s qc qn qnn qo (dsFactors ldiff) (dfFactors ldiff) 1 size =
      orient E j s (faceOf E s qc qn qo (dist lc ln)) (faceOf E (-s) qn qc qnn (dist ln lc)) := by
  have key : ∃ k : K, 0 < k ∧ (dsFactors ldiff : K × K).2 = dist lc ln ∧ (dfFactors ldiff : K × K).2 = 1 / 2 ∧
      (dsFactors ldiff : K × K).1 = k * 1 ∧ (dsFactors ldiff : K × K).2 = k * dist ln lc ∧
      (dfFactors ldiff : K × K).1 = k * (1 / 2) := by
    unfold dsFactors dfFactors dist
    rcases h with ⟨rfl, h⟩ | ⟨rfl, h⟩ | ⟨rfl, h⟩
    · refine ⟨1, one_pos, ?_⟩
      simp [h]
    · refine ⟨2, two_pos, ?_⟩
      rw [if_neg (by omega : ¬ ln = lc), if_pos (by omega : ln < lc), if_neg (by omega : ¬ lc = ln),
        if_neg (by omega : ¬ lc < ln)]
      norm_num
    · refine ⟨1 / 2, by norm_num, ?_⟩
      rw [if_neg (by omega : ¬ ln = lc), if_neg (by omega : ¬ ln < lc), if_neg (by omega : ¬ lc = ln),
        if_pos (by omega : lc < ln)]
      norm_num
  obtain ⟨k, k0, k1, k2, k3, k4, k5⟩ := key
  unfold side2 orient faceOf eulerFlux
  rw [hE]
  simp only
  rcases hs with rfl | rfl
  · rw [if_pos rfl, if_pos rfl, if_pos rfl, if_neg (by decide)]
    rw [reconstruct_scale E qc qn qnn (-1) k0 k4 k3 k5, k1, k2]
  · simp only [if_neg (show ¬ (-1 : ℤ) = 1 by decide), if_pos (show - (-1 : ℤ) = 1 by decide)]
    rw [reconstruct_scale E qnn qn qc 1 k0 k3 k4 k5, k1, k2]

theorem fac_eq (hd : d = 2 ∨ d = 3) : (fac d : K) = 1 / 2 ^ (d - 1) := by
  unfold fac
  rcases hd with rfl | rfl <;> norm_num

/-- An interface inside the domain. -/
theorem iface_eq (hG : G.Pos) (hM : Tiling G M) (hB : Balanced G M) (hd : d = 2 ∨ d = 3) {D : Domain d}
    (hD : Domain.Ok D) (hb : ∀ k, 4 ≤ b k ∧ 2 ∣ b k) (E : Scheme d K ι V) (hE : E.shift = none) (I : Source d V) {o : Oct d} (ho : o ∈ M)
    {x : Fin d → ℕ} (hx : ∀ k, x k < b k) (j : Fin d) {s : ℤ} (hs : s = 1 ∨ s = -1)
    (hin : InDomain (cellGrid G b) o.level (target b o x (faceOff j s))) :
    ∃ a, iface E I D G M b o x j s = some a ∧
      (volume D (cellGrid G b) (cellOct b o x) : K) * a =
        (cellSize D (cellGrid G b) (cellOct b o x) j : K) *
          ∑ q ∈ nbrs (cellGrid G b) (cellMesh b M) (cellOct b o x) j s,
            (area D (cellGrid G b) j (cellOct b o x) q : K) *
              orient E j s (faceState E I G M b (cellOct b o x) q j s)
                (faceState E I G M b q (cellOct b o x) j (-s)) := by
  have hb0 : ∀ k, 0 < b k := fun k => by have := (hb k).1; omega
  have hb2 : ∀ k, 2 ≤ b k := fun k => by have := (hb k).1; omega
  have hG' := cellGrid_pos hG hb0
  have hs' : -s = 1 ∨ -s = -1 := by omega
  have hov := hM.valid _ ho
  have hunc : unbox b M (cellOct b o x) = (o, x) := unbox_cell ho hx
  have habs := faceOff_abs (j := j) hs
  have habs' := faceOff_abs (j := j) hs'
  have hbz : ∀ k, -2 ≤ (x k : ℤ) + faceOff j s k ∧ (x k : ℤ) + faceOff j s k < b k + 2 := fun k => by
    have := abs_le.1 (habs k); have := hx k; omega
  have hbz' : ∀ k, -2 ≤ (x k : ℤ) + faceOff j (-s) k ∧ (x k : ℤ) + faceOff j (-s) k < b k + 2 := fun k => by
    have := abs_le.1 (habs' k); have := hx k; omega
  obtain ⟨r, h1, h2, h3, h4, hside⟩ := side hG hM hB ⟨o, x, b, .localToBlock⟩ ho hx rfl j hs hin
  have hrv := hM.valid _ h2
  obtain ⟨un, hun⟩ := patchRead_defined (I := I) hG hM hB ho hb hbz
  obtain ⟨uo, huo⟩ := patchRead_defined (I := I) hG hM hB ho hb hbz'
  have hbey : beyond E I G M b o x j (-s) = E.toPrim uo := by
    unfold beyond nextTo; rw [huo]
  -- the neighbour on the other side
  have hopp : ∃ ro, getNeighborGhost G M ⟨o, x, b, .localToBlock⟩ (faceOff j (-s)) = some ro := by
    by_cases hin' : InDomain (cellGrid G b) o.level (target b o x (faceOff j (-s)))
    · obtain ⟨ro, h, -⟩ := side hG hM hB ⟨o, x, b, .localToBlock⟩ ho hx rfl j hs' hin'
      exact ⟨ro, h⟩
    · obtain ⟨ro, h, -⟩ := outside hG hM hB ⟨o, x, b, .localToBlock⟩ ho hx rfl j hs' hin'
      exact ⟨ro, h⟩
  obtain ⟨ro, hro⟩ := hopp
  have hstart : iface E I D G M b o x j s =
      if r.levelDiff ≥ 0 then
        (if r.levelDiff > 0 then (getNeighbor r (faceOff j s)).map fun p => I.U p.oct p.idx
          else nextTo I G M b o x j (2 * s)).map fun unn =>
            side2 E j s (E.toPrim (I.U o x)) (E.toPrim un) (E.toPrim unn) (E.toPrim uo) (dsFactors r.levelDiff)
              (dfFactors r.levelDiff) 1 (getCellSize D G ⟨o, x, b, .localToBlock⟩ j : ℚ)
      else
        ((loops fun k => if faceOff j s k = 0 then [(0 : ℤ), 1] else [0]).mapM fun δ =>
          (getNeighborGhost G M r δ).bind fun n => (getNeighbor n (faceOff j s)).map fun m =>
            side2 E j s (E.toPrim (I.U o x)) (E.toPrim (I.U n.oct n.idx)) (E.toPrim (I.U m.oct m.idx))
              (E.toPrim uo) (dsFactors r.levelDiff) (dfFactors r.levelDiff) (dsFactors ro.levelDiff).2
              (getCellSize D G ⟨o, x, b, .localToBlock⟩ j : ℚ)).map
                fun l => l.sum * fac d := by
    unfold iface
    rw [patchRead_interior hx, Option.bind_some]
    unfold nextTo
    rw [hun, huo, hro, h1]
    rfl
  -- one step further from a cell inside its block
  have hfurther : ∀ {o' : Oct d} {y : Fin d → ℕ}, (∀ k, y k < b k) → (0 ≤ (y j : ℤ) + s ∧ (y j : ℤ) + s < b j) →
      beyond E I G M b o' y j s = E.toPrim (I.U o' (move y j s)) := by
    intro o' y hy h
    unfold beyond nextTo
    have := patchRead_interior (I := I) (G := G) (M := M) (o := o') (x := move y j s) (b := b) (move_lt hy h)
    rw [show (fun k => ((move y j s k : ℕ) : ℤ)) = fun k => (y k : ℤ) + faceOff j s k from
      funext fun k => move_cast h.1 k] at this
    rw [this]
  have hmove : ∀ {n : CellIndex d}, (∀ k, n.idx k < b k) → n.b = b →
      (0 ≤ (n.idx j : ℤ) + s ∧ (n.idx j : ℤ) + s < b j) →
      ∃ m, getNeighbor n (faceOff j s) = some m ∧ m.oct = n.oct ∧ m.idx = move n.idx j s := by
    intro n hn hnb h
    have hib := inBlock_move hn h
    unfold getNeighbor
    rw [inBlock_eq_some (by rw [hnb]; exact hib)]
    exact ⟨_, rfl, rfl, rfl⟩
  -- one neighbour that is not smaller
  have one : r.status ≠ .boundary → r.levelDiff ≥ 0 → (o.level = r.oct.level ∨ o.level = r.oct.level + 1) →
      nbrs (cellGrid G b) (cellMesh b M) (cellOct b o x) j s = {cellOct b r.oct r.idx} →
      (r.levelDiff = 0 ∧ r.oct.level = o.level ∨ r.levelDiff = 1 ∧ r.oct.level + 1 = o.level ∨
        r.levelDiff = -1 ∧ r.oct.level = o.level + 1) →
      (∃ unn, (if r.levelDiff > 0 then (getNeighbor r (faceOff j s)).map fun p => I.U p.oct p.idx
          else nextTo I G M b o x j (2 * s)) = some unn ∧
        E.toPrim unn = beyond E I G M b r.oct r.idx j s) →
      ∃ a, iface E I D G M b o x j s = some a ∧
        (volume D (cellGrid G b) (cellOct b o x) : K) * a =
          (cellSize D (cellGrid G b) (cellOct b o x) j : K) *
            ∑ q ∈ nbrs (cellGrid G b) (cellMesh b M) (cellOct b o x) j s,
              (area D (cellGrid G b) j (cellOct b o x) q : K) *
                orient E j s (faceState E I G M b (cellOct b o x) q j s)
                  (faceState E I G M b q (cellOct b o x) j (-s)) := by
    rintro k1 k2 k3 k4 k5 ⟨unn, k6, k7⟩
    have hnear := patchRead_near (I := I) hb2 hx hs h1 k1 k2
    rw [hun] at hnear
    have hun' := Option.some.inj hnear
    rw [hstart, if_pos k2, k6, Option.map_some]
    refine ⟨_, rfl, ?_⟩
    rw [k4, Finset.sum_singleton, side2_eq E hE _ j hs _ _ _ _ k5, k7, hun']
    have hst : orient E j s (faceState E I G M b (cellOct b o x) (cellOct b r.oct r.idx) j s)
        (faceState E I G M b (cellOct b r.oct r.idx) (cellOct b o x) j (-s)) =
        orient E j s (faceOf E s (E.toPrim (I.U o x)) (E.toPrim (I.U r.oct r.idx)) (E.toPrim uo)
          (dist o.level r.oct.level)) (faceOf E (-s) (E.toPrim (I.U r.oct r.idx)) (E.toPrim (I.U o x))
          (beyond E I G M b r.oct r.idx j s) (dist r.oct.level o.level)) := by
      unfold faceState
      rw [hunc, unbox_cell h2 h3, neg_neg]
      simp only
      rw [hbey]
      rfl
    rw [hst, ← area_of_le hG' hD (c := cellOct b o x) (q := cellOct b r.oct r.idx) hrv.1 k3 j]
    push_cast
    ring
  cases hside with
  | same st hl hn hp =>
    have hst' : r.status = .sameSize ∨ r.status = .localToBlock := by
      rcases st with st | st
      · right; rw [st]; rfl
      · exact Or.inl st
    have hld := (OneNeighbor.levelDiff_cases r).2.2 hst'
    refine one ?_ (by omega) (Or.inl hl.symm) hn (Or.inl ⟨hld, hl⟩) ?_
    · rcases hst' with h | h <;> rw [h] <;> decide
    · rw [if_neg (by omega)]
      have hfar := patchRead_far (I := I) hG hM hB ho hb hx hs hin h1 hl
      have hbzr : ∀ k, -2 ≤ (r.idx k : ℤ) + faceOff j s k ∧ (r.idx k : ℤ) + faceOff j s k < b k + 2 := fun k => by
        have := abs_le.1 (habs k); have := h3 k; simp only at this; omega
      obtain ⟨v, hv⟩ := patchRead_defined (I := I) hG hM hB h2 hb hbzr
      refine ⟨v, by unfold nextTo; rw [hfar, hv], ?_⟩
      unfold beyond nextTo
      rw [hv]
  | bigger st hl hn hp =>
    have hld := (OneNeighbor.levelDiff_cases r).2.1 st
    refine one (by rw [st]; decide) (by omega) (Or.inr hl.symm) hn (Or.inr (Or.inl ⟨hld, hl⟩)) ?_
    rw [if_pos (by omega)]
    have hmem : cellOct b r.oct r.idx ∈ nbrs (cellGrid G b) (cellMesh b M) (cellOct b o x) j s := by
      have := hn
      simp only at this
      rw [this]; exact Finset.mem_singleton_self _
    have hout := outer_of_level hG hM hB ho hx hs hmem (by simp only at hl; omega)
    have hedge := edge hG hM hB ho hx h2 h3 hs hmem hout
    have hstep : 0 ≤ (r.idx j : ℤ) + s ∧ (r.idx j : ℤ) + s < b j := by
      have h1 : r.idx j < b j := h3 j
      have h2 := hb2 j
      rcases hs with rfl | rfl <;> omega
    obtain ⟨m, m1, m2, m3⟩ := hmove h3 h4 hstep
    rw [m1, Option.map_some]
    exact ⟨_, rfl, by rw [m2, m3, hfurther h3 hstep]⟩
  | smaller st hl f hf hnd hn =>
    have hld := (OneNeighbor.levelDiff_cases r).1 st
    simp only at hl hf hnd hn
    rw [hstart, if_neg (by omega)]
    have hfmem : ∀ δ ∈ loops (fun k => if faceOff j s k = 0 then [(0 : ℤ), 1] else [0]),
        cellOct b (f δ).oct (f δ).idx ∈ nbrs (cellGrid G b) (cellMesh b M) (cellOct b o x) j s :=
      fun δ hδ => (hn _).2 (List.mem_map.2 ⟨δ, hδ, rfl⟩)
    have hout : ¬ (0 ≤ (x j : ℤ) + s ∧ (x j : ℤ) + s < b j) := by
      intro h
      have e := (inner hG hM hB ho hx hs h).1
      rw [h1] at e
      have := congrArg CellIndex.status (Option.some.inj e)
      rw [st] at this
      cases this
    have hback : 0 ≤ (x j : ℤ) + -s ∧ (x j : ℤ) + -s < b j := by
      have h1 := hx j
      have h2 := hb2 j
      rcases hs with rfl | rfl <;> omega
    have hrod : ro.levelDiff = 0 := by
      have e := (inner hG hM hB ho hx hs' hback).1
      rw [hro] at e
      rw [Option.some.inj e]
      unfold CellIndex.levelDiff
      simp
    have hds1 : (dsFactors ro.levelDiff : K × K).2 = 1 := by
      rw [hrod]; unfold dsFactors; simp
    rw [OneNeighbor.loops_mapM_some _ _ (fun δ => orient E j s
        (faceState E I G M b (cellOct b o x) (cellOct b (f δ).oct (f δ).idx) j s)
        (faceState E I G M b (cellOct b (f δ).oct (f δ).idx) (cellOct b o x) j (-s)))]
    · refine ⟨_, rfl, ?_⟩
      have hsum : ∀ g : Oct d → K, ∑ q ∈ nbrs (cellGrid G b) (cellMesh b M) (cellOct b o x) j s, g q =
          ((loops (fun k => if faceOff j s k = 0 then [(0 : ℤ), 1] else [0])).map
            fun δ => g (cellOct b (f δ).oct (f δ).idx)).sum := by
        intro g
        have : nbrs (cellGrid G b) (cellMesh b M) (cellOct b o x) j s =
            ((loops (fun k => if faceOff j s k = 0 then [(0 : ℤ), 1] else [0])).map
              fun δ => cellOct b (f δ).oct (f δ).idx).toFinset := by
          ext q
          rw [hn q, List.mem_toFinset]
        rw [this, List.sum_toFinset _ hnd, List.map_map]
        rfl
      beta_reduce
      rw [hsum, ← List.sum_map_mul_right, ← List.sum_map_mul_left, ← List.sum_map_mul_left]
      refine congrArg List.sum (List.map_congr_left fun δ hδ => ?_)
      obtain ⟨a1, a2, a3, a4, a5, a6⟩ := hf δ hδ
      rw [← area_of_finer hG' hD (c := cellOct b o x) (q := cellOct b (f δ).oct (f δ).idx) hov.1 a5 j, fac_eq hd]
      push_cast
      field_simp
    · intro δ hδ
      obtain ⟨a1, a2, a3, a4, a5, a6⟩ := hf δ hδ
      have hedge := edge hG hM hB ho hx a2 a3 hs (hfmem δ hδ) hout
      have hstep : 0 ≤ ((f δ).idx j : ℤ) + s ∧ ((f δ).idx j : ℤ) + s < b j := by
        have h1 := a3 j
        have h2 := hb2 j
        rcases hs with rfl | rfl <;> omega
      obtain ⟨m, m1, m2, m3⟩ := hmove a3 a4 hstep
      rw [a1, Option.bind_some, m1, Option.map_some, hds1, side2_eq E hE _ j hs _ _ _ _ (Or.inr (Or.inr ⟨hld, a5⟩)),
        m2, m3]
      unfold faceState
      rw [hunc, unbox_cell a2 a3, neg_neg]
      simp only
      rw [hbey, hfurther a3 hstep]
      rfl

/-- An interface on the boundary of the domain. -/
theorem iface_boundary (hG : G.Pos) (hM : Tiling G M) (hB : Balanced G M) {D : Domain d}
    (hb : ∀ k, 4 ≤ b k ∧ 2 ∣ b k) (E : Scheme d K ι V) (hE : E.shift = none) (I : Source d V) {o : Oct d} (ho : o ∈ M)
    {x : Fin d → ℕ} (hx : ∀ k, x k < b k) (j : Fin d) {s : ℤ} (hs : s = 1 ∨ s = -1)
    (hin : ¬ InDomain (cellGrid G b) o.level (target b o x (faceOff j s))) :
    ∃ a, iface E I D G M b o x j s = some a ∧
      (volume D (cellGrid G b) (cellOct b o x) : K) * a =
        (cellSize D (cellGrid G b) (cellOct b o x) j : K) *
          ((faceArea D (cellGrid G b) j (cellOct b o x) : K) * boundaryFlux E I G M b o x j s) := by
  have hs' : -s = 1 ∨ -s = -1 := by omega
  have hread : ∀ t : ℤ, |t| ≤ 2 → ∃ v, nextTo I G M b o x j t = some v := fun t ht =>
    patchRead_defined (I := I) hG hM hB ho hb fun k => by
      have h1 := hx k
      have h2 := abs_le.1 ht
      by_cases hk : k = j
      · subst hk; rw [faceOff_self]; omega
      · rw [faceOff_ne _ hk]; omega
  obtain ⟨un, hun⟩ := hread s (by rcases hs with rfl | rfl <;> decide)
  obtain ⟨uo, huo⟩ := hread (-s) (by rcases hs with rfl | rfl <;> decide)
  obtain ⟨unn, hunn⟩ := hread (2 * s) (by rcases hs with rfl | rfl <;> decide)
  obtain ⟨r, h1, h2, -⟩ := outside hG hM hB ⟨o, x, b, .localToBlock⟩ ho hx rfl j hs hin
  have hld : r.levelDiff = 0 := by unfold CellIndex.levelDiff; rw [h2]; rfl
  have hopp : ∃ ro, getNeighborGhost G M ⟨o, x, b, .localToBlock⟩ (faceOff j (-s)) = some ro := by
    by_cases hin' : InDomain (cellGrid G b) o.level (target b o x (faceOff j (-s)))
    · obtain ⟨ro, h, -⟩ := side hG hM hB ⟨o, x, b, .localToBlock⟩ ho hx rfl j hs' hin'
      exact ⟨ro, h⟩
    · obtain ⟨ro, h, -⟩ := outside hG hM hB ⟨o, x, b, .localToBlock⟩ ho hx rfl j hs' hin'
      exact ⟨ro, h⟩
  obtain ⟨ro, hro⟩ := hopp
  unfold iface
  rw [patchRead_interior hx, hun, huo, h1, hro]
  simp only [Option.bind_some]
  rw [if_pos (by omega), if_neg (by omega), hunn, Option.map_some]
  refine ⟨_, rfl, ?_⟩
  rw [side2_eq E hE _ j hs _ _ _ _ (lc := o.level) (ln := o.level) (Or.inl ⟨hld, rfl⟩)]
  have e : ∀ t u, nextTo I G M b o x j t = some u → beyond E I G M b o x j t = E.toPrim u := by
    intro t u h
    unfold beyond
    rw [h]
  unfold boundaryFlux
  rw [e _ _ hun, e _ _ huo, e _ _ hunn, ← faceArea_mul D _ j]
  unfold dist
  rw [if_pos rfl]
  push_cast
  ring

/-- Any interface. -/
theorem iface_all (hG : G.Pos) (hM : Tiling G M) (hB : Balanced G M) (hd : d = 2 ∨ d = 3) {D : Domain d}
    (hD : Domain.Ok D) (hb : ∀ k, 4 ≤ b k ∧ 2 ∣ b k) (E : Scheme d K ι V) (hE : E.shift = none) (I : Source d V) {o : Oct d} (ho : o ∈ M)
    {x : Fin d → ℕ} (hx : ∀ k, x k < b k) (j : Fin d) {s : ℤ} (hs : s = 1 ∨ s = -1) :
    ∃ a, iface E I D G M b o x j s = some a ∧
      (volume D (cellGrid G b) (cellOct b o x) : K) * a =
        (cellSize D (cellGrid G b) (cellOct b o x) j : K) *
          sideSum D G M b (pairFlux E I G M b) (boundaryFlux E I G M b) j s o x := by
  by_cases hin : InDomain (cellGrid G b) o.level (target b o x (faceOff j s))
  · obtain ⟨a, h1, h2⟩ := iface_eq hG hM hB hd hD hb E hE I ho hx j hs hin
    refine ⟨a, h1, ?_⟩
    unfold sideSum OnBoundary
    rw [if_neg (not_not.2 hin), add_zero, h2]
    congr 1
    refine Finset.sum_congr rfl fun q _ => ?_
    congr 1
    unfold orient pairFlux
    rcases hs with rfl | rfl
    · rfl
    · rw [neg_neg, if_neg (by decide), if_neg (by decide)]
  · obtain ⟨a, h1, h2⟩ := iface_boundary (D := D) hG hM hB hb E hE I ho hx j hs hin
    obtain ⟨-, -, -, h3⟩ := outside hG hM hB ⟨o, x, b, .localToBlock⟩ ho hx rfl j hs hin
    refine ⟨a, h1, ?_⟩
    unfold sideSum OnBoundary
    simp only at h3
    rw [if_pos hin, h3, Finset.sum_empty, zero_add, h2]

theorem updateCell_eq (hG : G.Pos) (hM : Tiling G M) (hB : Balanced G M) (hd : d = 2 ∨ d = 3) {D : Domain d}
    (hD : Domain.Ok D) (hb : ∀ k, 4 ≤ b k ∧ 2 ∣ b k) (E : Scheme d K ι V) (hE : E.shift = none) (I : Source d V) {o : Oct d} (ho : o ∈ M)
    {x : Fin d → ℕ} (hx : ∀ k, x k < b k) (dt u : K) :
    ∃ a, updateCell E I D G M b dt u o x = some a ∧
      (volume D (cellGrid G b) (cellOct b o x) : K) * a =
        (volume D (cellGrid G b) (cellOct b o x) : K) * u -
          dt * ∑ j, (sideSum D G M b (pairFlux E I G M b) (boundaryFlux E I G M b) j 1 o x -
            sideSum D G M b (pairFlux E I G M b) (boundaryFlux E I G M b) j (-1) o x) := by
  have hb0 : ∀ k, 0 < b k := fun k => by have := (hb k).1; omega
  have hpatch : ∃ l, (loops fun k => List.range (b k + 2 * 2)).mapM (patchVal I G M b o) = some l := by
    have : ∀ y, ∃ v, y ∈ (loops fun k => List.range (b k + 2 * 2)) → patchVal I G M b o y = some v := by
      intro y
      by_cases hy : y ∈ loops fun k => List.range (b k + 2 * 2)
      · obtain ⟨v, hv⟩ := patch_defined (I := I) hG hM hB ho hb (y := y)
          fun k => List.mem_range.1 ((mem_loops _ _).1 hy k)
        exact ⟨v, fun _ => hv⟩
      · exact ⟨I.U o x, fun h => absurd h hy⟩
    choose v hv using this
    exact ⟨_, OneNeighbor.loops_mapM_some _ _ v hv⟩
  obtain ⟨l, hl⟩ := hpatch
  have h := fun j => iface_all hG hM hB hd hD hb E hE I ho hx j (Or.inl rfl)
  have h' := fun j => iface_all hG hM hB hd hD hb E hE I ho hx j (s := -1) (Or.inr rfl)
  choose fR hR hR' using h
  choose fL hL hL' using h'
  unfold updateCell
  rw [hl, Option.bind_some, OneNeighbor.loops_mapM_some _ _ (fun j =>
    (fL j - fR j) * (dt / (getCellSize D G ⟨o, x, b, .localToBlock⟩ j : ℚ)))]
  · refine ⟨_, rfl, ?_⟩
    beta_reduce
    rw [← List.ofFn_eq_map, List.sum_ofFn, mul_add, Finset.mul_sum, Finset.mul_sum, sub_eq_add_neg,
      ← Finset.sum_neg_distrib]
    congr 1
    refine Finset.sum_congr rfl fun j _ => ?_
    have hs0 := cellSize_pos (cellGrid_pos hG hb0) hD (cellOct b o x) j
    have hsK : ((cellSize D (cellGrid G b) (cellOct b o x) j : ℚ) : K) ≠ 0 := by exact_mod_cast hs0.ne'
    rw [getCellSize_eq hG D ⟨o, x, b, .localToBlock⟩ hb0]
    rw [← mul_assoc, mul_sub, hL', hR']
    field_simp
    ring
  · intro j _
    rw [ifaceL_eq, ifaceR_eq, hL, hR]
    rfl

/-! ### Theorems -/

/-- C45 (balance) for the Euler scheme: with blocks of even size, at least 4, the update is defined in every
cell and the total of a conserved variable changes by what leaves through the boundary of the domain, at any
refinement of the mesh. Missing: the gravity source and the well-balanced option (`C45_well_balanced_fails`). -/
theorem C45_euler_balance_partial (hG : G.Pos) (hM : Tiling G M) (hB : Balanced G M) (hd : d = 2 ∨ d = 3) {D : Domain d}
    (hD : Domain.Ok D) (hb : ∀ k, 4 ≤ b k ∧ 2 ∣ b k) (E : Scheme d K ι V) (hE : E.shift = none) (I : Source d V) (dt : K)
    (U : Oct d → (Fin d → ℕ) → K) :
    ∃ U' : Oct d → (Fin d → ℕ) → K,
      (∀ o ∈ M, ∀ x : Fin d → ℕ, (∀ k, x k < b k) → updateCell E I D G M b dt (U o x) o x = some (U' o x)) ∧
      cellSum b M (fun o x => (volume D (cellGrid G b) (cellOct b o x) : K) * U' o x) =
        cellSum b M (fun o x => (volume D (cellGrid G b) (cellOct b o x) : K) * U o x) -
          dt * outflow D G M b (boundaryFlux E I G M b) :=
  balance hG hM (fun k => by have := (hb k).1; omega) D (pairFlux E I G M b) (boundaryFlux E I G M b) dt
    (fun o x => updateCell E I D G M b dt (U o x) o x) U
    fun o ho x hx => updateCell_eq hG hM hB hd hD hb E hE I ho hx dt (U o x)

/-- C45 (conservation) for the Euler scheme: on a periodic domain the total of a conserved variable does not
change, whatever the refinement of the mesh and the Riemann solver. -/
theorem C45_euler_conservation_partial (hG : G.Pos) (hM : Tiling G M) (hB : Balanced G M) (hd : d = 2 ∨ d = 3)
    (hper : ∀ k, G.periodic k = true) {D : Domain d} (hD : Domain.Ok D) (hb : ∀ k, 4 ≤ b k ∧ 2 ∣ b k)
    (E : Scheme d K ι V) (hE : E.shift = none) (I : Source d V) (dt : K) (U : Oct d → (Fin d → ℕ) → K) :
    ∃ U' : Oct d → (Fin d → ℕ) → K,
      (∀ o ∈ M, ∀ x : Fin d → ℕ, (∀ k, x k < b k) → updateCell E I D G M b dt (U o x) o x = some (U' o x)) ∧
      cellSum b M (fun o x => (volume D (cellGrid G b) (cellOct b o x) : K) * U' o x) =
        cellSum b M (fun o x => (volume D (cellGrid G b) (cellOct b o x) : K) * U o x) := by
  obtain ⟨U', h1, h2⟩ := C45_euler_balance_partial hG hM hB hd hD hb E hE I dt U
  refine ⟨U', h1, ?_⟩
  rw [h2, outflow_periodic hper, mul_zero, sub_zero]

/-- Advection of a quantity that differs in all cells. -/
def exScheme : Scheme 2 ℚ Unit ℚ := ⟨fun u _ => u, fun q => q, fun _ l _ => l (), none⟩

def exSource : Source 2 ℚ := ⟨fun o x => o.level + x 0 * x 0 + o.pos 0 + x 1, fun _ => 0, fun l => l.sum / l.length⟩

/-- The hypotheses hold on a refined mesh, and cells on both sides of the jump in refinement change. -/
example : torus.Pos ∧ Tiling torus quad.toFinset ∧ Balanced torus quad.toFinset ∧
    (∀ k, torus.periodic k = true) ∧ Domain.Ok torusDomain ∧ (∀ k, 4 ≤ (![4, 4] : Fin 2 → ℕ) k ∧ 2 ∣ ![4, 4] k) ∧
    updateCell exScheme exSource torusDomain torus quad.toFinset ![4, 4] (1 / 2) 7 ⟨1, ![0, 0]⟩ ![3, 0] = some (19 / 2) ∧
    updateCell exScheme exSource torusDomain torus quad.toFinset ![4, 4] (1 / 2) 7 ⟨2, ![2, 0]⟩ ![0, 0] = some 23 :=
  ⟨torus_pos, torus_tiling, torus_balanced, torus_periodic, torusDomain_ok, by decide, by decide +kernel,
    by decide +kernel⟩


/-- Pressure and density are both the stored number; the flux is the mean of the pressures; gravity is 1. -/
def wbScheme : Scheme 2 ℚ Bool ℚ :=
  ⟨fun u _ => u, fun q => q, fun _ l r => (l true + r true) / 2,
    some fun j q t i => if i then q true + q false * (if j = 0 then 1 else 0) * t else q false⟩

/-- C45 fails with the well-balanced option: the pressure is extrapolated over half the size of the cell that is
updated (L150-151), on both sides of the face. At a jump in refinement what leaves the bigger cell (area 1 times
the flux) is not what enters its two smaller neighbours (area 1/2 each). -/
theorem C45_well_balanced_fails :
    ∃ fR f₁ f₂ : ℚ,
      ifaceR wbScheme exSource torusDomain torus quad.toFinset ![4, 4] ⟨1, ![0, 0]⟩ ![3, 0] 0 = some fR ∧
      ifaceL wbScheme exSource torusDomain torus quad.toFinset ![4, 4] ⟨2, ![2, 0]⟩ ![0, 0] 0 = some f₁ ∧
      ifaceL wbScheme exSource torusDomain torus quad.toFinset ![4, 4] ⟨2, ![2, 0]⟩ ![0, 1] 0 = some f₂ ∧
      ((faceCells true torus quad.toFinset ⟨⟨1, ![0, 0]⟩, ![3, 0], ![4, 4], .localToBlock⟩ (faceOff 0 1)).map
        fun rs => rs.map fun r => (r.oct, r.idx)) =
          [some (⟨2, ![2, 0]⟩, ![0, 0]), some (⟨2, ![2, 0]⟩, ![0, 1])] ∧
      fR ≠ 1 / 2 * f₁ + 1 / 2 * f₂ :=
  ⟨127 / 16, 59 / 8, 125 / 16, by decide +kernel, by decide +kernel, by decide +kernel, by decide +kernel, by norm_num⟩

end Verif.Hydro.Euler
