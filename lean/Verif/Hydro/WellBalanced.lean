import Verif.Hydro.Boundary
import Verif.Hydro.Positive

/-!
# C97: the well-balanced option of `HydroUpdate_euler`

Model of `euler_update` (`core/src/hydro/HydroUpdate_utils.h` L362-625) with `hydro/well_balanced`, for all
conserved variables, with the gravity source and the treatment of boundaries, and of its calls in
`core/src/hydro/HydroUpdate_euler.cpp` L187-226. Boundaries defined by the user are not in the model (C47).
Arithmetic is exact.
-/

namespace Verif.Hydro.WellBalanced

open Verif.Octree Verif.Cells Verif.Flux Verif.Hydro Verif.Hydro.Euler

variable {d : ℕ}

/-! ### Model -/

/-- What `GravityInfo` and the rest of the settings contain. `inStep` is `apply_gravity_in_step`: true for
`gravity_type=constant_scalar`; false for `constant_field`, where the array of the acceleration holds `g`
everywhere (`HydroUpdate_euler.cpp` L108-112, L149-156, L168-169). -/
structure Setup where
  P : Params
  g : Fin 3 → ℝ
  inStep : Bool

/-- `p_out` of `riemann_hllc`, `core/src/RiemannSolvers.h` L168-192: the same value as `ptoto`. -/
noncomputable def pOut (P : Params) (dir : Fin 3) (l r : Prim ℝ) : ℝ := (sample P (swapPrim dir l) (swapPrim dir r)).pt

/-- `compute_euler_flux` L126-167 with `well_balanced`: the flux and `p_out`. -/
noncomputable def wbFlux (S : Setup) (dir : Fin 3) (l r : Prim ℝ) (size : ℝ) : Cons ℝ × ℝ :=
  let qL := { l with p := l.p + l.rho * S.g dir * size * (1 / 2) }
  let qR := { r with p := r.p - r.rho * S.g dir * size * (1 / 2) }
  (fluxDir S.P dir qL qR, pOut S.P dir qL qR)

/-- `State_Nd.h`, sums of states. -/
def plus (u v : Cons ℝ) : Cons ℝ := ⟨u.rho + v.rho, u.e + v.e, u.ru + v.ru, u.rv + v.rv, u.rw + v.rw⟩

def times (t : ℝ) (u : Cons ℝ) : Cons ℝ := ⟨t * u.rho, t * u.e, t * u.ru, t * u.rv, t * u.rw⟩

/-- `compute_primitives` L40-50. -/
noncomputable def toPrim (S : Setup) (d : ℕ) (u : Cons ℝ) : Prim ℝ := consToPrim d S.P.gamma (getCons d u)

/-- What is known of one side of a cell. `pout` is `none` if the variable is not initialised: it is declared without
a value (L478), and smaller neighbours add to it (L517, L556). -/
structure Face where
  boundary : Bool
  flux : Cons ℝ
  pout : Option ℝ

/-- L480-521 (`s = -1`) and L523-560 (`s = 1`). The second neighbour is read for the slopes, which are not used. -/
noncomputable def side (S : Setup) (I : Source d (Cons ℝ)) (D : Domain d) (G : Grid d) (M : Finset (Oct d)) (b : Fin d → ℕ)
    (o : Oct d) (x : Fin d → ℕ) (j : Fin d) (s : ℤ) : Option Face :=
  (patchRead I G M b o fun k => x k).bind fun uC => (nextTo I G M b o x j s).bind fun uN =>
  (getNeighborGhost G M ⟨o, x, b, .localToBlock⟩ (faceOff j s)).bind fun r =>
    let size : ℝ := (getCellSize D G ⟨o, x, b, .localToBlock⟩ j : ℚ)
    let fl (u : Cons ℝ) := if s = -1 then wbFlux S (axis j) (toPrim S d u) (toPrim S d uC) size
      else wbFlux S (axis j) (toPrim S d uC) (toPrim S d u) size
    if r.levelDiff ≥ 0 then
      (if r.levelDiff > 0 then (getNeighbor r (faceOff j s)).map fun p => I.U p.oct p.idx
        else nextTo I G M b o x j (2 * s)).map fun _ => ⟨decide (r.status = .boundary), (fl uN).1, some (fl uN).2⟩
    else
      ((loops fun k => if faceOff j s k = 0 then [(0 : ℤ), 1] else [0]).mapM fun δ =>
        (getNeighborGhost G M r δ).bind fun n => (getNeighbor n (faceOff j s)).map fun _ => (fl (I.U n.oct n.idx)).1).map
          fun l => ⟨false, times (fac d) (l.foldl plus ⟨0, 0, 0, 0, 0⟩), none⟩

/-- L576-582, L590-596: a flux that is 0 except for the momentum along `dir`. -/
def momFlux (dir : Fin 3) (m : ℝ) : Cons ℝ :=
  match dir with
  | 0 => ⟨0, 0, m, 0, 0⟩
  | 1 => ⟨0, 0, 0, m, 0⟩
  | 2 => ⟨0, 0, 0, 0, m⟩

/-- L562-624, given both sides: the state `u` of `Uout` after the direction `j`. `none`: a value that is not
initialised is used. -/
noncomputable def stepFaces (S : Setup) (d : ℕ) (dir : Fin 3) (rho size dt : ℝ) (L R : Face) (u : Cons ℝ) : Option (Cons ℝ) :=
  let gval := if S.inStep then S.g dir else 0
  (if L.boundary then R.pout.map fun p => momFlux dir (p - rho * gval * size) else some L.flux).bind fun fL =>
  (if R.boundary then L.pout.map fun p => momFlux dir (p + rho * gval * size) else some R.flux).map fun fR =>
    let u1 := plus (getCons d u) (times (dt / size) (plus fL (times (-1) fR)))
    let u2 := if S.inStep then plus (plus u1 (momFlux dir (dt * rho * gval))) ⟨0, dt * (1 / 2) * (fR.rho + fL.rho) * gval, 0, 0, 0⟩
      else u1
    setCons d u u2

/-- `euler_update` L362-625 in direction `j`. -/
noncomputable def stepDir (S : Setup) (I : Source d (Cons ℝ)) (D : Domain d) (G : Grid d) (M : Finset (Oct d)) (b : Fin d → ℕ)
    (o : Oct d) (x : Fin d → ℕ) (dt : ℝ) (u : Cons ℝ) (j : Fin d) : Option (Cons ℝ) :=
  (patchRead I G M b o fun k => x k).bind fun uC =>
  (side S I D G M b o x j (-1)).bind fun L => (side S I D G M b o x j 1).bind fun R =>
    stepFaces S d (axis j) (toPrim S d uC).rho (getCellSize D G ⟨o, x, b, .localToBlock⟩ j : ℚ) dt L R u

/-- `HydroUpdate_euler.cpp` L187-223: cell `x` of octant `o`; `old` is what `Uout` contains before. -/
noncomputable def fluxes (S : Setup) (I : Source d (Cons ℝ)) (D : Domain d) (G : Grid d) (M : Finset (Oct d)) (b : Fin d → ℕ)
    (dt : ℝ) (o : Oct d) (x : Fin d → ℕ) (old : Cons ℝ) : Option (Cons ℝ) :=
  ((loops fun k => List.range (b k + 2 * 2)).mapM (patchVal I G M b o)).bind fun _ =>
    ((List.finRange d).foldlM (stepDir S I D G M b o x dt) (setCons d old (getCons d (I.U o x)))).map fun u =>
      if S.inStep then u else gravityCorrection d dt (I.U o x).rho S.g u

/-- With `clean_negative_primitive_values`, L226. -/
noncomputable def update (S : Setup) (I : Source d (Cons ℝ)) (D : Domain d) (G : Grid d) (M : Finset (Oct d)) (b : Fin d → ℕ)
    (dt : ℝ) (o : Oct d) (x : Fin d → ℕ) (old : Cons ℝ) : Option (Cons ℝ) :=
  (fluxes S I D G M b dt o x old).map (cleanNegative d S.P.gamma S.P.smallr S.P.smallp)

/-! ### Specification -/

/-- Middle of a box. -/
def middle (D : Domain d) (G : Grid d) (q : Oct d) (k : Fin d) : ℚ :=
  D.xmin k + (lo G q k + hi G q k) / 2 * (D.xmax k - D.xmin k)

/-- From the middle of `c` to the middle of its neighbour `q` in direction `j`, also through a periodic boundary. -/
def apart (D : Domain d) (G : Grid d) (c q : Oct d) (j k : Fin d) : ℚ :=
  if k = j then (cellSize D G c j + cellSize D G q j) / 2 else middle D G q k - middle D G c k

/-- Hydrostatic equilibrium in constant gravity: the gas is at rest, and between the middles of two neighbours the
pressure grows by the weight of the gas between them, with the mean of their densities. -/
structure Hydrostatic (gamma : ℝ) (g : Fin 3 → ℝ) (D : Domain d) (G : Grid d) (M : Finset (Oct d)) (b : Fin d → ℕ)
    (U : Oct d → (Fin d → ℕ) → Cons ℝ) : Prop where
  rest : ∀ o ∈ M, ∀ x : Fin d → ℕ, (∀ k, x k < b k) → ∀ k : Fin d, (U o x).mom (axis k) = 0
  weight : ∀ o ∈ M, ∀ x : Fin d → ℕ, (∀ k, x k < b k) → ∀ o' ∈ M, ∀ x' : Fin d → ℕ, (∀ k, x' k < b k) → ∀ j,
    cellOct b o' x' ∈ nbrs (cellGrid G b) (cellMesh b M) (cellOct b o x) j 1 →
    pressure d gamma (U o' x') - pressure d gamma (U o x) =
      ((U o x).rho + (U o' x').rho) / 2 *
        ∑ k, g (axis k) * (apart D (cellGrid G b) (cellOct b o x) (cellOct b o' x') j k : ℝ)

/-- The floors of the solver have no effect, neither in the cells nor at their faces. -/
def AboveFloors (P : Params) (g : Fin 3 → ℝ) (D : Domain d) (G : Grid d) (M : Finset (Oct d)) (b : Fin d → ℕ)
    (U : Oct d → (Fin d → ℕ) → Cons ℝ) : Prop :=
  ∀ o ∈ M, ∀ x : Fin d → ℕ, (∀ k, x k < b k) → P.smallr ≤ (U o x).rho ∧ ∀ j,
    (U o x).rho * P.smallp ≤ pressure d P.gamma (U o x) -
      (U o x).rho * |g (axis j)| * (cellSize D (cellGrid G b) (cellOct b o x) j : ℝ) / 2

/-- The neighbours of a cell on one side have its size. -/
def EvenSide (G : Grid d) (M : Finset (Oct d)) (b : Fin d → ℕ) (o : Oct d) (x : Fin d → ℕ) (j : Fin d) (s : ℤ) : Prop :=
  ∀ q ∈ nbrs (cellGrid G b) (cellMesh b M) (cellOct b o x) j s, q.level = (cellOct b o x).level

/-! ### The Riemann solver at rest -/

section

variable {P : Params} (hP : P.Ok)

include hP

theorem sample_rest (l r : Prim ℝ) (hl : l.u = 0) (hr : r.u = 0) (hp : sideP P l = sideP P r) :
    (sample P l r).uo = 0 ∧ (sample P l r).pt = sideP P l := by
  obtain ⟨w1, w2, hL, hR, h1, h2⟩ := waves hP l r
  have hD : rcr P l r + rcl P l r ≠ 0 := (add_pos hR hL).ne'
  have hu : ustar P l r = 0 := by
    unfold ustar
    rw [hl, hr, hp]
    simp
  have hps : pstar P l r = sideP P l := by
    unfold pstar
    rw [hl, hr, ← hp]
    field_simp
    ring
  unfold sample
  rw [if_neg (by rw [hu] at h1; exact not_lt.2 h1.le), if_neg (by rw [hu]; exact lt_irrefl _),
    if_pos (by rw [hu] at h2; exact h2)]
  exact ⟨hu, hps⟩

theorem flux_rest (dir : Fin 3) (l r : Prim ℝ) (hl : l.vel dir = 0) (hr : r.vel dir = 0)
    (hla : Admissible P l) (hra : Admissible P r) (hp : l.p = r.p) :
    fluxDir P dir l r = momFlux dir l.p ∧ pOut P dir l r = l.p := by
  have hlu : (swapPrim dir l).u = 0 := by fin_cases dir <;> exact hl
  have hru : (swapPrim dir r).u = 0 := by fin_cases dir <;> exact hr
  have e : ∀ q : Prim ℝ, Admissible P q → sideP P (swapPrim dir q) = q.p := by
    intro q hq
    have h1 : (swapPrim dir q).rho = q.rho := by fin_cases dir <;> rfl
    have h2 : (swapPrim dir q).p = q.p := by fin_cases dir <;> rfl
    unfold sideP sideR
    rw [h1, h2, max_eq_left hq.1, max_eq_left hq.2]
  obtain ⟨h1, h2⟩ := sample_rest hP (swapPrim dir l) (swapPrim dir r) hlu hru (by rw [e l hla, e r hra, hp])
  rw [e l hla] at h2
  refine ⟨?_, h2⟩
  unfold fluxDir hllc godunov
  simp only [h1, h2, mul_zero, zero_mul, lt_irrefl, if_false, zero_add]
  fin_cases dir <;> rfl

end

/-! ### One cell -/

section

variable {S : Setup} {D : Domain d} {G : Grid d} {M : Finset (Oct d)} {b : Fin d → ℕ} {I : Source d (Cons ℝ)}
  {o : Oct d} {x : Fin d → ℕ} {j : Fin d}

theorem axis_val (hd : d = 2 ∨ d = 3) (j : Fin d) : (axis j).val = j.val := by
  rcases hd with rfl | rfl <;> fin_cases j <;> rfl

theorem toPrim_p' (hd : d = 2 ∨ d = 3) {u : Cons ℝ} (hu : u.rho ≠ 0) :
    (toPrim S d u).p = pressure d S.P.gamma u := toPrim_p (P := S.P) hd hu

theorem toPrim_rest (hd : d = 2 ∨ d = 3) {u : Cons ℝ} (j : Fin d) (h : u.mom (axis j) = 0) :
    (toPrim S d u).vel (axis j) = 0 := by
  unfold toPrim consToPrim getCons
  rcases hd with rfl | rfl <;> fin_cases j <;> simp_all [axis, Prim.vel, Cons.mom]

/-- The pressure at a face. -/
noncomputable def faceP (S : Setup) (D : Domain d) (G : Grid d) (b : Fin d → ℕ) (U : Oct d → (Fin d → ℕ) → Cons ℝ)
    (o : Oct d) (x : Fin d → ℕ) (j : Fin d) (s : ℝ) : ℝ :=
  pressure d S.P.gamma (U o x) + s * ((U o x).rho * S.g (axis j) * (cellSize D (cellGrid G b) (cellOct b o x) j : ℚ) / 2)

theorem wbFlux_rest (hP : S.P.Ok) (hd : d = 2 ∨ d = 3) (j : Fin d) {l r : Cons ℝ} {h : ℝ} (h0 : 0 ≤ h)
    (hl : l.mom (axis j) = 0) (hr : r.mom (axis j) = 0) (hlr : S.P.smallr ≤ l.rho) (hrr : S.P.smallr ≤ r.rho)
    (hlp : l.rho * S.P.smallp ≤ pressure d S.P.gamma l - l.rho * |S.g (axis j)| * h / 2)
    (hrp : r.rho * S.P.smallp ≤ pressure d S.P.gamma r - r.rho * |S.g (axis j)| * h / 2)
    (heq : pressure d S.P.gamma r - pressure d S.P.gamma l = S.g (axis j) * (l.rho + r.rho) / 2 * h) :
    wbFlux S (axis j) (toPrim S d l) (toPrim S d r) h =
      (momFlux (axis j) (pressure d S.P.gamma l + l.rho * S.g (axis j) * h / 2),
        pressure d S.P.gamma l + l.rho * S.g (axis j) * h / 2) := by
  have l0 : 0 < l.rho := hP.smallr.trans_le hlr
  have r0 : 0 < r.rho := hP.smallr.trans_le hrr
  have ep := toPrim_p' (S := S) hd l0.ne'
  have eq := toPrim_p' (S := S) hd r0.ne'
  have el : (toPrim S d l).rho = l.rho := rfl
  have er : (toPrim S d r).rho = r.rho := rfl
  have a1 : -(l.rho * |S.g (axis j)| * h) ≤ l.rho * S.g (axis j) * h := by
    have := neg_abs_le (S.g (axis j))
    have := mul_le_mul_of_nonneg_left this (mul_nonneg l0.le h0)
    linarith
  have a2 : r.rho * S.g (axis j) * h ≤ r.rho * |S.g (axis j)| * h := by
    have := le_abs_self (S.g (axis j))
    have := mul_le_mul_of_nonneg_left this (mul_nonneg r0.le h0)
    linarith
  have hv : ∀ (q : Prim ℝ) (p : ℝ), ({ q with p := p } : Prim ℝ).vel (axis j) = q.vel (axis j) := by
    intro q p
    generalize axis j = k
    fin_cases k <;> rfl
  obtain ⟨f1, f2⟩ := flux_rest hP (axis j)
    { toPrim S d l with p := (toPrim S d l).p + (toPrim S d l).rho * S.g (axis j) * h * (1 / 2) }
    { toPrim S d r with p := (toPrim S d r).p - (toPrim S d r).rho * S.g (axis j) * h * (1 / 2) }
    (by rw [hv]; exact toPrim_rest hd j hl) (by rw [hv]; exact toPrim_rest hd j hr)
    ⟨hlr, by show l.rho * _ ≤ (toPrim S d l).p + l.rho * _ * h * _; rw [ep]; linarith⟩
    ⟨hrr, by show r.rho * _ ≤ (toPrim S d r).p - r.rho * _ * h * _; rw [eq]; linarith⟩
    (by show (toPrim S d l).p + l.rho * _ * h * _ = (toPrim S d r).p - r.rho * _ * h * _; rw [ep, eq]; linarith)
  have e : (toPrim S d l).p + (toPrim S d l).rho * S.g (axis j) * h * (1 / 2) =
      pressure d S.P.gamma l + l.rho * S.g (axis j) * h / 2 := by rw [ep, el]; ring
  unfold wbFlux
  simp only at f1 f2 ⊢
  rw [f1, f2, e]

theorem apart_even {c q : Oct d} (h : q.level = c.level) (D : Domain d) (G : Grid d) {j : Fin d}
    (hp : ∀ k, k ≠ j → q.pos k = c.pos k) (g : Fin 3 → ℝ) :
    ∑ k, g (axis k) * (apart D G c q j k : ℝ) = g (axis j) * (cellSize D G c j : ℚ) := by
  rw [Finset.sum_eq_single j]
  · unfold apart
    rw [if_pos rfl, cellSize_eq, cellSize_eq, h]
    push_cast
    ring
  · intro k _ hk
    unfold apart middle lo hi
    rw [if_neg hk, hp k hk, h]
    simp
  · intro h
    exact absurd (Finset.mem_univ _) h

theorem size_level {q c : Oct d} (h : q.level = c.level) (D : Domain d) (G : Grid d) (k : Fin d) :
    cellSize D G q k = cellSize D G c k := by
  rw [cellSize_eq, cellSize_eq, h]

/-- A side inside the domain with a neighbour of the same size. -/
theorem side_even (hG : G.Pos) (hM : Tiling G M) (hB : Balanced G M) (hb : ∀ k, 4 ≤ b k ∧ 2 ∣ b k) (ho : o ∈ M)
    (hx : ∀ k, x k < b k) {s : ℤ} (hs : s = 1 ∨ s = -1) (hE : EvenSide G M b o x j s)
    (hin : InDomain (cellGrid G b) o.level (target b o x (faceOff j s))) :
    ∃ o' ∈ M, ∃ x' : Fin d → ℕ, (∀ k, x' k < b k) ∧
      nbrs (cellGrid G b) (cellMesh b M) (cellOct b o x) j s = {cellOct b o' x'} ∧
      (∀ k, k ≠ j → (cellOct b o' x').pos k = (cellOct b o x).pos k) ∧
      WellBalanced.side S I D G M b o x j s =
        let f := if s = -1 then
            wbFlux S (axis j) (toPrim S d (I.U o' x')) (toPrim S d (I.U o x)) (cellSize D (cellGrid G b) (cellOct b o x) j : ℚ)
          else wbFlux S (axis j) (toPrim S d (I.U o x)) (toPrim S d (I.U o' x')) (cellSize D (cellGrid G b) (cellOct b o x) j : ℚ)
        some ⟨false, f.1, some f.2⟩ := by
  have hb0 : ∀ k, 0 < b k := fun k => by have := (hb k).1; omega
  have hb2 : ∀ k, 2 ≤ b k := fun k => by have := (hb k).1; omega
  obtain ⟨r, h1, h2, h3, -, hside⟩ := Flux.side hG hM hB ⟨o, x, b, .localToBlock⟩ ho hx rfl j hs hin
  simp only at h3
  have key : (r.status = .localToBlock ∨ r.status = .sameSize) ∧
      nbrs (cellGrid G b) (cellMesh b M) (cellOct b o x) j s = {cellOct b r.oct r.idx} ∧
      ∀ k, k ≠ j → (cellOct b r.oct r.idx).pos k = (cellOct b o x).pos k := by
    cases hside with
    | same hst hl hn hp => exact ⟨hst, hn, hp⟩
    | bigger hst hl hn _ =>
      simp only at hn hl
      have : r.oct.level = o.level := hE (cellOct b r.oct r.idx) (by rw [hn]; exact Finset.mem_singleton_self _)
      omega
    | smaller hst hl f hf hnd hn =>
      exfalso
      simp only at hn hf
      have hne : (0 : Fin d → ℤ) ∈ loops (fun k => if faceOff j s k = 0 then [(0 : ℤ), 1] else [0]) := by
        rw [mem_loops]
        intro k
        split <;> simp
      have h5 := (hf 0 hne).2.2.2.2.1
      have : (f 0).oct.level = o.level := hE (cellOct b (f 0).oct (f 0).idx)
        ((hn _).2 (List.mem_map.2 ⟨0, hne, rfl⟩))
      omega
  obtain ⟨hst, hn, hpos⟩ := key
  have hld : r.levelDiff = 0 := by unfold CellIndex.levelDiff; rcases hst with h | h <;> rw [h] <;> rfl
  have hnb : r.status ≠ .boundary := by rcases hst with h | h <;> rw [h] <;> decide
  have hnear : nextTo I G M b o x j s = some (I.U r.oct r.idx) := patchRead_near hb2 hx hs h1 hnb (by omega)
  obtain ⟨unn, hunn⟩ : ∃ v, nextTo I G M b o x j (2 * s) = some v :=
    patchRead_defined (I := I) hG hM hB ho hb fun k => by
      have h1 := hx k
      by_cases hk : k = j
      · subst hk; rw [faceOff_self]; omega
      · rw [faceOff_ne _ hk]; omega
  refine ⟨r.oct, h2, r.idx, h3, hn, hpos, ?_⟩
  unfold WellBalanced.side
  rw [patchRead_interior hx, hnear, h1]
  simp only [Option.bind_some]
  rw [if_pos (show r.levelDiff ≥ 0 by omega), if_neg (show ¬ r.levelDiff > 0 by omega), hunn, Option.map_some,
    getCellSize_eq hG D ⟨o, x, b, .localToBlock⟩ hb0]
  simp only [decide_eq_false hnb]

/-- The same in equilibrium. -/
theorem side_inside (hP : S.P.Ok) (hd : d = 2 ∨ d = 3) (hG : G.Pos) (hM : Tiling G M) (hB : Balanced G M)
    (hD : Domain.Ok D) (hb : ∀ k, 4 ≤ b k ∧ 2 ∣ b k) (hH : Hydrostatic S.P.gamma S.g D G M b I.U)
    (hF : AboveFloors S.P S.g D G M b I.U) (ho : o ∈ M) (hx : ∀ k, x k < b k) {s : ℤ}
    (hs : s = 1 ∨ s = -1) (hE : EvenSide G M b o x j s) (hin : InDomain (cellGrid G b) o.level (target b o x (faceOff j s))) :
    WellBalanced.side S I D G M b o x j s =
      some ⟨false, momFlux (axis j) (faceP S D G b I.U o x j s), some (faceP S D G b I.U o x j s)⟩ := by
  have hb0 : ∀ k, 0 < b k := fun k => by have := (hb k).1; omega
  have hG' := cellGrid_pos hG hb0
  have hM' := cellMesh_tiling hG hb0 hM
  obtain ⟨o', h2, x', h3, hnb, hpos, hside⟩ := side_even (S := S) (I := I) (D := D) hG hM hB hb ho hx hs hE hin
  have hn : cellOct b o' x' ∈ nbrs (cellGrid G b) (cellMesh b M) (cellOct b o x) j s := by
    rw [hnb]
    exact Finset.mem_singleton_self _
  have hcm : cellOct b o x ∈ cellMesh b M := mem_cellMesh.2 ⟨_, ho, _, hx, rfl⟩
  have hrm : cellOct b o' x' ∈ cellMesh b M := mem_cellMesh.2 ⟨_, h2, _, h3, rfl⟩
  have hsz : cellSize D (cellGrid G b) (cellOct b o' x') j = cellSize D (cellGrid G b) (cellOct b o x) j :=
    size_level (hE _ hn) D _ j
  have h0 : (0 : ℝ) ≤ (cellSize D (cellGrid G b) (cellOct b o x) j : ℚ) := by
    exact_mod_cast (cellSize_pos hG' hD (cellOct b o x) j).le
  obtain ⟨c1, c2⟩ := hF o ho x hx
  obtain ⟨n1, n2⟩ := hF o' h2 x' h3
  have n2 := n2 j
  rw [hsz] at n2
  rw [hside]
  simp only
  rcases hs with rfl | rfl
  · have hw := hH.weight o ho x hx o' h2 x' h3 j hn
    rw [apart_even (hE _ hn) D _ hpos] at hw
    rw [if_neg (by decide), wbFlux_rest hP hd j h0 (hH.rest o ho x hx j) (hH.rest o' h2 x' h3 j) c1 n1 (c2 j) n2
      (by rw [hw]; ring)]
    unfold faceP
    simp only [Int.cast_one, one_mul]
  · have hn' := (nbrs_symm hG' hM' (Or.inr rfl) hcm hrm).1 hn
    rw [neg_neg] at hn'
    have hw := hH.weight o' h2 x' h3 o ho x hx j hn'
    rw [apart_even (hE _ hn).symm D _ fun k hk => (hpos k hk).symm, hsz] at hw
    rw [if_pos rfl, wbFlux_rest hP hd j h0 (hH.rest o' h2 x' h3 j) (hH.rest o ho x hx j) n1 c1 n2 (c2 j)
      (by rw [hw]; ring)]
    have e : pressure d S.P.gamma (I.U o' x') + (I.U o' x').rho * S.g (axis j) *
        (cellSize D (cellGrid G b) (cellOct b o x) j : ℚ) / 2 = faceP S D G b I.U o x j ((-1 : ℤ) : ℝ) := by
      unfold faceP
      push_cast at hw ⊢
      linarith
    rw [e]

/-- A side on the boundary of the domain. -/
theorem side_outside (hG : G.Pos) (hM : Tiling G M) (hB : Balanced G M) (hb : ∀ k, 4 ≤ b k ∧ 2 ∣ b k)
    (ho : o ∈ M) (hx : ∀ k, x k < b k) {s : ℤ} (hs : s = 1 ∨ s = -1)
    (hin : ¬ InDomain (cellGrid G b) o.level (target b o x (faceOff j s))) :
    ∃ f p, WellBalanced.side S I D G M b o x j s = some ⟨true, f, some p⟩ := by
  have hread : ∀ t : ℤ, |t| ≤ 2 → ∃ v, nextTo I G M b o x j t = some v := fun t ht =>
    patchRead_defined (I := I) hG hM hB ho hb fun k => by
      have h1 := hx k
      have h2 := abs_le.1 ht
      by_cases hk : k = j
      · subst hk; rw [faceOff_self]; omega
      · rw [faceOff_ne _ hk]; omega
  obtain ⟨un, hun⟩ := hread s (by rcases hs with rfl | rfl <;> decide)
  obtain ⟨unn, hunn⟩ := hread (2 * s) (by rcases hs with rfl | rfl <;> decide)
  obtain ⟨r, h1, h2, -⟩ := outside hG hM hB ⟨o, x, b, .localToBlock⟩ ho hx rfl j hs hin
  have hld : r.levelDiff = 0 := by unfold CellIndex.levelDiff; rw [h2]; rfl
  unfold WellBalanced.side
  rw [patchRead_interior hx, hun, h1]
  simp only [Option.bind_some]
  rw [if_pos (show r.levelDiff ≥ 0 by omega), if_neg (show ¬ r.levelDiff > 0 by omega), hunn, Option.map_some]
  simp only [decide_eq_true h2]
  exact ⟨_, _, rfl⟩

/-- One side of a cell is inside the domain. -/
theorem inside_or (hG : G.Pos) (hM : Tiling G M) (hB : Balanced G M) (hb : ∀ k, 4 ≤ b k ∧ 2 ∣ b k)
    (ho : o ∈ M) (hx : ∀ k, x k < b k) (j : Fin d) :
    InDomain (cellGrid G b) o.level (target b o x (faceOff j (-1))) ∨
      InDomain (cellGrid G b) o.level (target b o x (faceOff j 1)) := by
  have h1 := hx j
  have h2 := (hb j).1
  by_cases h : (x j : ℤ) + 1 < b j
  · exact Or.inr (inner hG hM hB ho hx (Or.inl rfl) ⟨by omega, h⟩).2.1
  · exact Or.inl (inner hG hM hB ho hx (Or.inr rfl) ⟨by omega, by omega⟩).2.1

theorem getCons_idem (u : Cons ℝ) : getCons d (getCons d u) = getCons d u := by
  unfold getCons; simp only; split <;> rfl

theorem get_set (u v : Cons ℝ) : getCons d (setCons d u v) = getCons d v := by
  unfold getCons setCons; simp only; split <;> rfl

theorem set_get (u : Cons ℝ) : setCons d u (getCons d u) = u := by
  unfold getCons setCons; simp only; split <;> rfl

/-- What the two sides of a cell in equilibrium do. -/
theorem stepFaces_rest (hS : S.inStep = true) {rho h dt pL pR : ℝ} (h0 : h ≠ 0) (dir : Fin 3)
    (hp : pR - pL = rho * S.g dir * h) {L R : Face}
    (hL : L = ⟨false, momFlux dir pL, some pL⟩ ∨ (∃ f p, L = ⟨true, f, some p⟩) ∧ R = ⟨false, momFlux dir pR, some pR⟩)
    (hR : R = ⟨false, momFlux dir pR, some pR⟩ ∨ (∃ f p, R = ⟨true, f, some p⟩) ∧ L = ⟨false, momFlux dir pL, some pL⟩)
    (u : Cons ℝ) : stepFaces S d dir rho h dt L R u = some u := by
  have main : ∀ fL fR, fL = momFlux dir pL → fR = momFlux dir pR →
      setCons d u (plus (plus (plus (getCons d u) (times (dt / h) (plus fL (times (-1) fR))))
        (momFlux dir (dt * rho * S.g dir))) ⟨0, dt * (1 / 2) * (fR.rho + fL.rho) * S.g dir, 0, 0, 0⟩) = u := by
    rintro fL fR rfl rfl
    conv_rhs => rw [← set_get (d := d) u]
    have e : dt / h * (pL + -1 * pR) + dt * rho * S.g dir = 0 := by
      have : pL + -1 * pR = -(rho * S.g dir * h) := by linarith
      rw [this]
      field_simp
      ring
    congr 1
    have z : dt / h * (pL + -1 * pR) = -(dt * rho * S.g dir) := by linarith
    fin_cases dir <;> simp only [momFlux, plus, times] <;> simp only [Fin.zero_eta, Fin.mk_one, Fin.reduceFinMk] at z ⊢ <;>
      rw [Cons.mk.injEq] <;> refine ⟨?_, ?_, ?_, ?_, ?_⟩ <;> first | (rw [z]; ring) | ring
  unfold stepFaces
  rw [hS]
  simp only [if_true]
  rcases hL with rfl | ⟨⟨f, p, rfl⟩, rfl⟩
  · rcases hR with rfl | ⟨⟨f, p, rfl⟩, -⟩
    · simp only [Bool.false_eq_true, if_false, Option.bind_some, Option.map_some]
      exact congrArg some (main _ _ rfl rfl)
    · simp only [Bool.false_eq_true, if_false, if_true, Option.bind_some, Option.map_some]
      exact congrArg some (main _ _ rfl (by congr 1; linarith))
  · simp only [Bool.false_eq_true, if_false, if_true, Option.bind_some, Option.map_some]
    exact congrArg some (main _ _ (by congr 1; linarith) rfl)

theorem stepDir_rest (hS : S.inStep = true) (hP : S.P.Ok) (hd : d = 2 ∨ d = 3) (hG : G.Pos) (hM : Tiling G M)
    (hB : Balanced G M) (hD : Domain.Ok D) (hb : ∀ k, 4 ≤ b k ∧ 2 ∣ b k) (hH : Hydrostatic S.P.gamma S.g D G M b I.U)
    (hF : AboveFloors S.P S.g D G M b I.U) (ho : o ∈ M) (hx : ∀ k, x k < b k) (dt : ℝ)
    (u : Cons ℝ) (j : Fin d) (hE : ∀ s : ℤ, s = 1 ∨ s = -1 → EvenSide G M b o x j s) : stepDir S I D G M b o x dt u j = some u := by
  have hb0 : ∀ k, 0 < b k := fun k => by have := (hb k).1; omega
  have hz := cellSize_pos (cellGrid_pos hG hb0) hD (cellOct b o x) j
  have hz' : ((cellSize D (cellGrid G b) (cellOct b o x) j : ℚ) : ℝ) ≠ 0 := by exact_mod_cast hz.ne'
  have hs : ∀ s : ℤ, s = 1 ∨ s = -1 → ∃ F, WellBalanced.side S I D G M b o x j s = some F ∧
      (InDomain (cellGrid G b) o.level (target b o x (faceOff j s)) →
        F = ⟨false, momFlux (axis j) (faceP S D G b I.U o x j s), some (faceP S D G b I.U o x j s)⟩) ∧
      (¬ InDomain (cellGrid G b) o.level (target b o x (faceOff j s)) → ∃ f p, F = ⟨true, f, some p⟩) := by
    intro s hs
    by_cases hin : InDomain (cellGrid G b) o.level (target b o x (faceOff j s))
    · exact ⟨_, side_inside hP hd hG hM hB hD hb hH hF ho hx hs (hE s hs) hin, fun _ => rfl, fun h => absurd hin h⟩
    · obtain ⟨f, p, h⟩ := side_outside (S := S) (I := I) (D := D) hG hM hB hb ho hx hs hin
      exact ⟨_, h, fun h => absurd h hin, fun _ => ⟨f, p, rfl⟩⟩
  obtain ⟨L, hL, l1, l2⟩ := hs (-1) (Or.inr rfl)
  obtain ⟨R, hR, r1, r2⟩ := hs 1 (Or.inl rfl)
  unfold stepDir
  rw [patchRead_interior hx, hL, hR]
  simp only [Option.bind_some]
  rw [getCellSize_eq hG D ⟨o, x, b, .localToBlock⟩ hb0]
  have hor := inside_or hG hM hB hb ho hx j
  refine stepFaces_rest hS hz' (axis j) (pL := faceP S D G b I.U o x j ((-1 : ℤ) : ℝ))
    (pR := faceP S D G b I.U o x j ((1 : ℤ) : ℝ)) ?_ ?_ ?_ u
  · unfold faceP
    push_cast
    show _ = (I.U o x).rho * _ * _
    ring
  · by_cases hin : InDomain (cellGrid G b) o.level (target b o x (faceOff j (-1)))
    · exact Or.inl (l1 hin)
    · exact Or.inr ⟨l2 hin, r1 (hor.resolve_left hin)⟩
  · by_cases hin : InDomain (cellGrid G b) o.level (target b o x (faceOff j 1))
    · exact Or.inl (r1 hin)
    · exact Or.inr ⟨r2 hin, l1 (hor.resolve_right hin)⟩

theorem patch_filled (hG : G.Pos) (hM : Tiling G M) (hB : Balanced G M) (hb : ∀ k, 4 ≤ b k ∧ 2 ∣ b k) (ho : o ∈ M) :
    ∃ l, (loops fun k => List.range (b k + 2 * 2)).mapM (patchVal I G M b o) = some l := by
  have : ∀ y, ∃ v, y ∈ (loops fun k => List.range (b k + 2 * 2)) → patchVal I G M b o y = some v := by
    intro y
    by_cases hy : y ∈ loops fun k => List.range (b k + 2 * 2)
    · obtain ⟨v, hv⟩ := patch_defined (I := I) hG hM hB ho hb (y := y)
        fun k => List.mem_range.1 ((mem_loops _ _).1 hy k)
      exact ⟨v, fun _ => hv⟩
    · exact ⟨I.U o fun _ => 0, fun h => absurd h hy⟩
  choose v hv using this
  exact ⟨_, OneNeighbor.loops_mapM_some _ _ v hv⟩

/-! ### Theorems -/

/-- **C97** With `gravity_type=constant_scalar`, a gas in hydrostatic equilibrium stays as it is in every cell whose
neighbours have its size, for any time step and whatever is read beyond the boundary of the domain. Missing: cells
next to a change of refinement, where it fails (`C97_refined_fails`). -/
theorem C97_equilibrium_partial (hS : S.inStep = true) (hP : S.P.Ok) (hd : d = 2 ∨ d = 3) (hG : G.Pos) (hM : Tiling G M)
    (hB : Balanced G M) (hD : Domain.Ok D) (hb : ∀ k, 4 ≤ b k ∧ 2 ∣ b k) (hH : Hydrostatic S.P.gamma S.g D G M b I.U)
    (hF : AboveFloors S.P S.g D G M b I.U) (ho : o ∈ M) (hx : ∀ k, x k < b k) (hE : ∀ j, ∀ s : ℤ, s = 1 ∨ s = -1 → EvenSide G M b o x j s) (dt : ℝ)
    (old : Cons ℝ) : update S I D G M b dt o x old = some (setCons d old (I.U o x)) := by
  obtain ⟨l, hl⟩ := patch_filled (I := I) hG hM hB hb ho
  have hfold : ∀ (L : List (Fin d)) (u : Cons ℝ), L.foldlM (stepDir S I D G M b o x dt) u = some u := by
    intro L u
    induction L with
    | nil => rfl
    | cons a L ih =>
      rw [List.foldlM_cons, stepDir_rest hS hP hd hG hM hB hD hb hH hF ho hx dt u a (hE a)]
      exact ih
  have e : setCons d old (getCons d (I.U o x)) = setCons d old (I.U o x) := by
    unfold getCons setCons; simp only; split <;> rfl
  obtain ⟨c1, c2⟩ := hF o ho x hx
  have h0 : 0 < (I.U o x).rho := hP.smallr.trans_le c1
  unfold update fluxes
  rw [hl, Option.bind_some, hfold, hS, e]
  simp only [Option.map_some, if_true]
  congr 1
  refine C51_valid_unchanged d hd _ _ _ _ h0 ?_
  have hp : pressure d S.P.gamma (setCons d old (I.U o x)) = pressure d S.P.gamma (I.U o x) := by
    unfold pressure kinetic setCons; simp only; split <;> rfl
  rw [hp]
  have j : Fin d := ⟨0, by omega⟩
  have hb0 : ∀ k, 0 < b k := fun k => by have := (hb k).1; omega
  have hz := cellSize_pos (cellGrid_pos hG hb0) hD (cellOct b o x) j
  have hz' : (0 : ℝ) ≤ ((cellSize D (cellGrid G b) (cellOct b o x) j : ℚ) : ℝ) := by exact_mod_cast hz.le
  have := c2 j
  have t1 := mul_pos h0 hP.smallp
  have t2 : 0 ≤ (I.U o x).rho * |S.g (axis j)| * ((cellSize D (cellGrid G b) (cellOct b o x) j : ℚ) : ℝ) / 2 := by
    positivity
  linarith

theorem even_of_uniform {L : ℕ} (hL : ∀ o ∈ M, o.level = L) (ho : o ∈ M) (j : Fin d) (s : ℤ) :
    EvenSide G M b o x j s := by
  intro q hq
  obtain ⟨o', ho', x', -, rfl⟩ := mem_cellMesh.1 (mem_nbrs.1 hq).1
  show o'.level = o.level
  rw [hL o ho, hL o' ho']

theorem mom_get (hd : d = 2 ∨ d = 3) {u v : Cons ℝ} (h : getCons d u = getCons d v) (k : Fin d) :
    u.mom (axis k) = v.mom (axis k) := by
  unfold getCons at h
  rw [Cons.mk.injEq] at h
  rcases hd with rfl | rfl
  · fin_cases k
    · exact h.2.2.1
    · exact h.2.2.2.1
  · fin_cases k
    · exact h.2.2.1
    · exact h.2.2.2.1
    · have := h.2.2.2.2
      simp only [if_true] at this
      exact this

theorem pressure_get {u v : Cons ℝ} (h : getCons d u = getCons d v) (gamma : ℝ) :
    pressure d gamma u = pressure d gamma v := by
  unfold getCons at h
  rw [Cons.mk.injEq] at h
  obtain ⟨h1, h2, h3, h4, h5⟩ := h
  unfold pressure kinetic
  rw [h1, h2, h3, h4]
  by_cases hd : d = 3
  · rw [if_pos hd, if_pos hd] at h5
    rw [h5]
  · rw [if_neg hd, if_neg hd]

/-- **C97** On a mesh with one level the equilibrium lasts for any number of steps of any size; `I n` is what the
solver reads at step `n`, whatever the boundary conditions and the contents of the arrays that are overwritten. -/
theorem C97_run (hS : S.inStep = true) (hP : S.P.Ok) (hd : d = 2 ∨ d = 3) (hG : G.Pos) (hM : Tiling G M)
    (hB : Balanced G M) (hD : Domain.Ok D) (hb : ∀ k, 4 ≤ b k ∧ 2 ∣ b k) {L : ℕ} (hL : ∀ o ∈ M, o.level = L)
    (I : ℕ → Source d (Cons ℝ)) (old : ℕ → Oct d → (Fin d → ℕ) → Cons ℝ) (dt : ℕ → ℝ)
    (hH : Hydrostatic S.P.gamma S.g D G M b (I 0).U) (hF : AboveFloors S.P S.g D G M b (I 0).U)
    (hstep : ∀ n, ∀ o ∈ M, ∀ x : Fin d → ℕ, (∀ k, x k < b k) → ∀ v,
      update S (I n) D G M b (dt n) o x (old n o x) = some v → (I (n + 1)).U o x = v) (n : ℕ) :
    ∀ o ∈ M, ∀ x : Fin d → ℕ, (∀ k, x k < b k) → getCons d ((I n).U o x) = getCons d ((I 0).U o x) := by
  induction n with
  | zero => exact fun _ _ _ _ => rfl
  | succ n ih =>
    have hrho : ∀ o ∈ M, ∀ x : Fin d → ℕ, (∀ k, x k < b k) → ((I n).U o x).rho = ((I 0).U o x).rho :=
      fun o ho x hx => by
        have h := congrArg Cons.rho (ih o ho x hx)
        exact h
    have hp : ∀ o ∈ M, ∀ x : Fin d → ℕ, (∀ k, x k < b k) →
        pressure d S.P.gamma ((I n).U o x) = pressure d S.P.gamma ((I 0).U o x) :=
      fun o ho x hx => pressure_get (ih o ho x hx) _
    have hHn : Hydrostatic S.P.gamma S.g D G M b (I n).U := by
      refine ⟨fun o ho x hx k => ?_, fun o ho x hx o' ho' x' hx' j hn => ?_⟩
      · rw [mom_get hd (ih o ho x hx) k]
        exact hH.rest o ho x hx k
      · rw [hp o ho x hx, hp o' ho' x' hx', hrho o ho x hx, hrho o' ho' x' hx']
        exact hH.weight o ho x hx o' ho' x' hx' j hn
    have hFn : AboveFloors S.P S.g D G M b (I n).U := by
      intro o ho x hx
      rw [hp o ho x hx, hrho o ho x hx]
      exact hF o ho x hx
    intro o ho x hx
    have := C97_equilibrium_partial (I := I n) hS hP hd hG hM hB hD hb hHn hFn ho hx
      (fun j s _ => even_of_uniform hL ho j s) (dt n) (old n o x)
    rw [hstep n o ho x hx _ this, get_set, ih o ho x hx]

end

/-! ### A gas of constant density -/

/-- Constant density, at rest; the pressure is linear. -/
noncomputable def linear (S : Setup) (D : Domain d) (G : Grid d) (b : Fin d → ℕ) (rho p0 : ℝ) (o : Oct d) (x : Fin d → ℕ) :
    Cons ℝ :=
  ⟨rho, (p0 + rho * ∑ k : Fin d, S.g (axis k) * (middle D (cellGrid G b) (cellOct b o x) k : ℝ)) / (S.P.gamma - 1), 0, 0, 0⟩

section

variable {S : Setup} {D : Domain d} {G : Grid d} {M : Finset (Oct d)} {b : Fin d → ℕ} {rho p0 : ℝ}

theorem linear_pressure (hP : S.P.Ok) (o : Oct d) (x : Fin d → ℕ) :
    pressure d S.P.gamma (linear S D G b rho p0 o x) =
      p0 + rho * ∑ k : Fin d, S.g (axis k) * (middle D (cellGrid G b) (cellOct b o x) k : ℝ) := by
  have : S.P.gamma - 1 ≠ 0 := by linarith [hP.gamma]
  unfold pressure kinetic linear
  simp only
  have e : ((0 : ℝ) ^ 2 + 0 ^ 2 + if d = 3 then 0 ^ 2 else 0) / (2 * rho) = 0 := by split <;> simp
  rw [e, sub_zero]
  field_simp

/-- On every mesh without periodic directions it is in equilibrium. -/
theorem linear_hydrostatic (hP : S.P.Ok) (hG : G.Pos) (hb : ∀ k, 0 < b k) (hM : Tiling G M)
    (hopen : ∀ k, G.periodic k = false) : Hydrostatic S.P.gamma S.g D G M b (linear S D G b rho p0) := by
  refine ⟨fun o _ x _ k => ?_, fun o ho x hx o' ho' x' hx' j hn => ?_⟩
  · show (⟨_, _, 0, 0, 0⟩ : Cons ℝ).mom _ = 0
    generalize axis k = i
    fin_cases i <;> rfl
  · have ht := nbrs_touch (cellGrid_pos hG hb) (cellMesh_tiling hG hb hM) (fun k => hopen k)
      (mem_cellMesh.2 ⟨o, ho, x, hx, rfl⟩) hn
    rw [linear_pressure hP, linear_pressure hP]
    show _ = (rho + rho) / 2 * _
    have e : ∀ k, (apart D (cellGrid G b) (cellOct b o x) (cellOct b o' x') j k : ℝ) =
        (middle D (cellGrid G b) (cellOct b o' x') k : ℝ) - (middle D (cellGrid G b) (cellOct b o x) k : ℝ) := by
      intro k
      have : apart D (cellGrid G b) (cellOct b o x) (cellOct b o' x') j k =
          middle D (cellGrid G b) (cellOct b o' x') k - middle D (cellGrid G b) (cellOct b o x) k := by
        unfold apart
        by_cases hk : k = j
        · rw [if_pos hk, hk]
          unfold cellSize middle
          rw [ht]
          ring
        · rw [if_neg hk]
      rw [this]
      push_cast
      ring
    simp only [e, mul_sub, Finset.sum_sub_distrib]
    ring

end

/-- Gravity along the first direction in the unit square. -/
noncomputable def exSetup (inStep : Bool) : Setup := ⟨⟨2, 1 / 100, 1 / 100, 1 / 100⟩, ![-1, 0, 0], inStep⟩

def unitSquare : Domain 2 := ⟨![0, 0], ![1, 1]⟩

theorem unitSquare_ok : Domain.Ok unitSquare := by
  intro k
  fin_cases k <;> simp [unitSquare]

theorem exSetup_ok (s : Bool) : (exSetup s).P.Ok := ⟨by norm_num [exSetup], by norm_num [exSetup], by norm_num [exSetup]⟩

noncomputable def exGas (s : Bool) : Oct 2 → (Fin 2 → ℕ) → Cons ℝ := linear (exSetup s) unitSquare quadGrid ![4, 4] 1 10

theorem exGas_pressure (s : Bool) (o : Oct 2) (x : Fin 2 → ℕ) : pressure 2 2 (exGas s o x) =
    10 - (middle unitSquare (cellGrid quadGrid ![4, 4]) (cellOct ![4, 4] o x) 0 : ℝ) := by
  have := linear_pressure (D := unitSquare) (G := quadGrid) (b := ![4, 4]) (rho := 1) (p0 := 10) (exSetup_ok s) o x
  unfold exGas
  change pressure 2 (exSetup s).P.gamma _ = _
  rw [this, Fin.sum_univ_two]
  show 10 + 1 * ((-1) * _ + 0 * _) = _
  ring

theorem exGas_floors (s : Bool) {M : Finset (Oct 2)} (hM : Tiling quadGrid M) :
    AboveFloors (exSetup s).P (exSetup s).g unitSquare quadGrid M ![4, 4] (exGas s) := by
  intro o ho x hx
  refine ⟨by norm_num [exSetup, exGas, linear], fun j => ?_⟩
  have hb : ∀ k, 0 < (![4, 4] : Fin 2 → ℕ) k := by decide
  have hv := (cellMesh_tiling quadGrid_pos hb hM).valid _ (mem_cellMesh.2 ⟨o, ho, x, hx, rfl⟩)
  have hc : ∀ k, (0 : ℚ) < (cellGrid quadGrid ![4, 4]).count k (cellOct ![4, 4] o x).level := fun k => by
    exact_mod_cast count_pos (cellGrid_pos quadGrid_pos hb) k _
  have h1 : ∀ k, hi (cellGrid quadGrid ![4, 4]) (cellOct ![4, 4] o x) k ≤ 1 := by
    intro k
    unfold hi
    rw [div_le_one (hc k)]
    exact_mod_cast hv.2 k
  have h0 : ∀ k, 0 ≤ lo (cellGrid quadGrid ![4, 4]) (cellOct ![4, 4] o x) k := by
    intro k
    unfold lo
    have := hc k
    positivity
  have m : middle unitSquare (cellGrid quadGrid ![4, 4]) (cellOct ![4, 4] o x) 0 ≤ 1 := by
    have := lo_lt_hi (cellGrid_pos quadGrid_pos hb) (cellOct ![4, 4] o x) 0
    have := h1 0
    simp only [middle, unitSquare, Matrix.cons_val_zero]
    linarith
  have z : cellSize unitSquare (cellGrid quadGrid ![4, 4]) (cellOct ![4, 4] o x) j ≤ 1 := by
    have := h1 j
    have := h0 j
    unfold cellSize
    fin_cases j <;> simp [unitSquare] at * <;> linarith
  have m' : ((middle unitSquare (cellGrid quadGrid ![4, 4]) (cellOct ![4, 4] o x) 0 : ℚ) : ℝ) ≤ 1 := by exact_mod_cast m
  have z' : ((cellSize unitSquare (cellGrid quadGrid ![4, 4]) (cellOct ![4, 4] o x) j : ℚ) : ℝ) ≤ 1 := by exact_mod_cast z
  have z0 : (0 : ℝ) ≤ ((cellSize unitSquare (cellGrid quadGrid ![4, 4]) (cellOct ![4, 4] o x) j : ℚ) : ℝ) := by
    exact_mod_cast (cellSize_pos (cellGrid_pos quadGrid_pos hb) unitSquare_ok _ j).le
  have g1 : |(exSetup s).g (axis j)| ≤ 1 := by
    fin_cases j
    · show |(-1 : ℝ)| ≤ 1
      norm_num
    · show |(0 : ℝ)| ≤ 1
      norm_num
  have hp := exGas_pressure s o x
  show 1 * (1 / 100) ≤ pressure 2 2 _ - 1 * _ * _ / 2
  rw [hp]
  have := mul_le_mul g1 z' z0 zero_le_one
  linarith

/-- The hypotheses of C97 hold for a gas whose pressure differs from cell to cell, on a refined mesh too. -/
example : (exSetup true).inStep = true ∧ (exSetup true).P.Ok ∧ quadGrid.Pos ∧ Tiling quadGrid quad.toFinset ∧
    Balanced quadGrid quad.toFinset ∧ Domain.Ok unitSquare ∧ (∀ k, 4 ≤ (![4, 4] : Fin 2 → ℕ) k ∧ 2 ∣ ![4, 4] k) ∧
    Hydrostatic (exSetup true).P.gamma (exSetup true).g unitSquare quadGrid quad.toFinset ![4, 4] (exGas true) ∧
    AboveFloors (exSetup true).P (exSetup true).g unitSquare quadGrid quad.toFinset ![4, 4] (exGas true) ∧
    pressure 2 2 (exGas true ⟨1, ![0, 0]⟩ ![0, 0]) = 159 / 16 ∧ pressure 2 2 (exGas true ⟨1, ![0, 0]⟩ ![1, 0]) = 157 / 16 := by
  refine ⟨rfl, exSetup_ok _, quadGrid_pos, quad_tiling, quad_balanced, unitSquare_ok, by decide,
    linear_hydrostatic (exSetup_ok _) quadGrid_pos (by decide) quad_tiling (by decide), exGas_floors _ quad_tiling, ?_, ?_⟩
  · rw [exGas_pressure]
    norm_num [middle, lo, hi, cellGrid, cellOct, Grid.count, quadGrid, unitSquare]
  · rw [exGas_pressure]
    norm_num [middle, lo, hi, cellGrid, cellOct, Grid.count, quadGrid, unitSquare]

end Verif.Hydro.WellBalanced
