import Verif.Legacy.Jump
import Verif.Legacy.Ranks
import Verif.Sim.LayersCheck

/-!
# C94: two layers are not enough, and cases that meet the hypotheses
-/

namespace Verif.Legacy

open Verif.Octree Verif.Cells Verif.Run Verif.Legacy.Spec Verif.Adapt
open Verif.Sim (rankMap exchangeLayers ghostCount Own SameCells legPar ghost_source)
open Verif.Partition (Within)

noncomputable section

/-! ### A density that changes next to smaller octants, velocity 10 and pressure 1 everywhere -/

/-- Blocks of 6 × 6 cells, periodic in `x`, walls in `y`, no gravity. -/
def rankPar : Par 2 := { legPar with copyGravity := false }

def gas (rho : ℝ) : Cell 2
  | .rho => rho
  | .etot => 1 + 50 * rho
  | .mom k => if k = 0 then 10 * rho else 0
  | .grav _ => 0

def gasPrim (rho : ℝ) : State 2
  | .rho => rho
  | .e => 1
  | .mom k => if k = 0 then 10 else 0

/-- The density in a row of cells of the smaller octant; 3 elsewhere. -/
def rowDensity (o : Oct 2) (x : Fin 2 → ℕ) : ℝ :=
  if o = ⟨2, ![1, 0]⟩ ∧ x 1 / 2 = 1 then (if x 0 / 2 = 1 then 1 else if x 0 / 2 = 2 then 2 else 3) else 3

def rowGas : Mesh 2 := fun o x => gas (rowDensity o x)

theorem toPrim_gas (t : ℤ) {rho : ℝ} (h1 : 1 ≤ rho) (h2 : rho ≤ 10) : toPrim (jumpUPar t).rp (hv (gas rho)) = gasPrim rho := by
  have e1 : max rho (1 / 1000) = rho := max_eq_left (by linarith)
  have h0 : rho ≠ 0 := by linarith
  funext v
  cases v with
  | rho => simp only [toPrim, hv, HV.var, gas, jumpUPar, gasPrim, e1]
  | e =>
    simp only [toPrim, hv, HV.var, gas, jumpUPar, gasPrim, e1, Fin.sum_univ_two]
    have : (2 - 1) * rho * ((1 + 50 * rho) / rho - 1 / 2 * ((if True then 10 * rho else 0) / rho *
        ((if True then 10 * rho else 0) / rho) + (if (1 : Fin 2) = 0 then 10 * rho else 0) / rho *
        ((if (1 : Fin 2) = 0 then 10 * rho else 0) / rho))) = 1 := by
      simp
      field_simp
      ring
    rw [this]
    exact max_eq_left (by linarith)
  | mom k =>
    simp only [toPrim, hv, HV.var, gas, jumpUPar, gasPrim, e1]
    split <;> simp [h0]

/-- Supersonic flow carries the density of the left. -/
theorem gas_flux (t : ℤ) {a c : ℝ} (ha : 1 ≤ a) (ha' : a ≤ 10) (hc : 1 ≤ c) (hc' : c ≤ 10) :
    riemannHydro (jumpUPar t).rp (gasPrim a) (gasPrim c) .rho = a * 10 := by
  have hcf : ∀ a : ℝ, 1 ≤ a → a ≤ 10 → Hydro.cfast (jumpUPar t).rp ⟨a, 1, 10, 0, 0⟩ ≤ 3 := by
    intro a ha ha'
    unfold Hydro.cfast Hydro.sideP Hydro.sideR
    simp only [jumpUPar]
    rw [Real.sqrt_le_left (by norm_num), max_eq_left (by linarith : (1 / 1000 : ℝ) ≤ a),
      max_eq_left (by linarith : a * (1 / 1000 : ℝ) ≤ 1)]
    refine max_le ?_ (by norm_num)
    rw [div_le_iff₀ (by linarith)]
    linarith
  have hL : 0 < Hydro.waveL (jumpUPar t).rp ⟨a, 1, 10, 0, 0⟩ ⟨c, 1, 10, 0, 0⟩ := by
    unfold Hydro.waveL
    have h3 := max_le (hcf a ha ha') (hcf c hc hc')
    simp only [min_self]
    linarith
  have e : ∀ a, toHydro (gasPrim a) = ⟨a, 1, 10, 0, 0⟩ := fun a => by
    simp [toHydro, gasPrim]
  unfold riemannHydro
  rw [e, e]
  unfold Hydro.hllc Hydro.sample
  rw [if_pos hL]
  simp only [ofFlux, Hydro.godunov, Hydro.sideR, Hydro.sideP, jumpUPar,
    max_eq_left (by linarith : (1 / 1000 : ℝ) ≤ a)]

/-! ### Ghost cells of the larger octant -/

theorem gas_source {W : Fin 2 → ℕ} (h0 : W 0 = 4 ∨ W 0 = 5) (h1 : W 1 ≤ 2) {a : Oct 2} {x : Fin 2 → ℕ}
    {s : Fin 2 → Fin 2} (ha : a ∈ exMesh) (hx : ∀ i, x i < 6)
    (h : Anc (cellOct ![6, 6] a x) ⟨1 + 1, fun i => 2 * W i + s i⟩) :
    a = ⟨2, ![1, 0]⟩ ∧ x 0 = 2 * W 0 + s 0 - 6 ∧ x 1 = 2 * W 1 + s 1 := by
  obtain ⟨-, h⟩ := h
  have e0 := h 0
  have e1 := h 1
  have x0 := hx 0
  have x1 := hx 1
  have s0 := (s 0).2
  have s1 := (s 1).2
  simp only [exMesh, List.mem_cons, List.not_mem_nil, or_false] at ha
  rcases ha with rfl | rfl | rfl | rfl | rfl | rfl | rfl <;> simp [cellOct] at e0 e1
  · omega
  · exact ⟨rfl, by omega, by omega⟩
  all_goals omega

/-- The values of a ghost cell left of the octant are those of the cells of the smaller octant, if these are equal. -/
theorem gas_ghost (U : Mesh 2) (B : Block 2) :
    ∃ B', fillGhosts rankPar exMesh.toFinset U ⟨1, ![1, 0]⟩ B = some B' ∧
      (∀ (c y : ℕ), (c = 4 ∨ c = 5) → y ≤ 2 → ∀ rho : ℝ, (∀ x : Fin 2 → ℕ, x 0 + 6 = 2 * c + x 0 % 2 → x 1 = 2 * y + x 1 % 2 →
        U ⟨2, ![1, 0]⟩ x = gas rho) → ∀ v : HV 2, B' ![(c : ℤ) - 6, y] v.var = gas rho v.var) ∧
      ∀ p : Fin 2 → ℤ, (∀ i, 0 ≤ p i ∧ p i < 6) → ∀ v : HV 2, B' p v.var = U ⟨1, ![1, 0]⟩ (fun i => (p i).toNat) v.var := by
  obtain ⟨B', h1, h2, h3, -⟩ := fillGhosts_spec (P := rankPar) exGrid_wf.toPos exMesh_tiling exMesh_balanced
    (o := ⟨1, ![1, 0]⟩) (by decide) (by decide) (by decide) (by decide) (fun _ _ _ _ => by decide)
    (by unfold PeriodicOk; decide) U B
  refine ⟨B', h1, fun c y hc hy rho hU v => ?_, fun p hp v => h3 p (fun i => ?_) _ fun k hk => by cases v <;> cases hk⟩
  swap
  · have := hp i
    fin_cases i <;> exact this
  have him : (fun i => image (wall (rankPar.bcMin i)) (wall (rankPar.bcMax i))
      ((cellGrid rankPar.G rankPar.b).count i 1) (lattice rankPar.b ⟨1, ![1, 0]⟩ ![(c : ℤ) - 6, y] i)) = ![(c : ℤ), y] := by
    funext i
    fin_cases i
    · rcases hc with rfl | rfl <;> simp [image, rankPar, legPar, lattice, cellGrid, Grid.count, exGrid]
    · simp [image, rankPar, legPar, lattice, cellGrid, Grid.count, exGrid]
      omega
  have hsg : ∀ i, imageSign (wall (rankPar.bcMin i)) (wall (rankPar.bcMax i))
      ((cellGrid rankPar.G rankPar.b).count i 1) (lattice rankPar.b ⟨1, ![1, 0]⟩ ![(c : ℤ) - 6, y] i) = 1 := by
    intro i
    fin_cases i
    · rcases hc with rfl | rfl <;> simp [imageSign, rankPar, legPar, lattice, cellGrid, Grid.count, exGrid, wall]
    · simp [imageSign, rankPar, legPar, lattice, cellGrid, Grid.count, exGrid, wall]
  obtain ⟨W, hW, hm⟩ := h2 ![(c : ℤ) - 6, y] (fun i => by
    fin_cases i
    · show -2 ≤ (c : ℤ) - 6 ∧ (c : ℤ) - 6 < 6 + 2
      omega
    · show -2 ≤ (y : ℤ) ∧ (y : ℤ) < 6 + 2
      omega) (by
    rw [him]
    intro i
    right
    fin_cases i
    · simp [rankPar, legPar, cellGrid, Grid.count, exGrid]
      omega
    · simp [rankPar, legPar, cellGrid, Grid.count, exGrid]
      omega)
  rw [him] at hW
  have hm := hm v.var (by cases v <;> trivial)
  have w0 : W 0 = c := by
    obtain ⟨hlt, t, -, ht⟩ := hW 0
    simp [rankPar, legPar, cellGrid, Grid.count, exGrid] at ht hlt
    omega
  have w1 : W 1 = y := by
    obtain ⟨hlt, t, -, ht⟩ := hW 1
    simp [rankPar, legPar, cellGrid, Grid.count, exGrid] at ht hlt
    omega
  obtain ⟨k, hk, e⟩ := hm
  have : ∀ s, U (k s).1 (k s).2 v.var = gas rho v.var := by
    intro s
    obtain ⟨k1, k2, k3⟩ := hk s
    obtain ⟨e1, e2, e3⟩ := gas_source (by rw [w0]; exact hc) (by omega) (List.mem_toFinset.1 k1)
      (fun i => by have := k2 i; fin_cases i <;> exact this) k3
    have s0 := (s 0).2
    have s1 := (s 1).2
    rw [e1, hU _ (by omega) (by omega)]
  simp only [this] at e
  have e1 : varSign (fun i => imageSign (wall (rankPar.bcMin i)) (wall (rankPar.bcMax i))
      ((cellGrid rankPar.G rankPar.b).count i 1) (lattice rankPar.b ⟨1, ![1, 0]⟩ ![(c : ℤ) - 6, y] i)) v.var = 1 := by
    cases v with
    | mom k => exact hsg k
    | _ => rfl
  rw [e1, one_mul] at e
  rw [e]
  simp
  ring

/-! ### The flux through the left face of a cell -/

/-- The slopes are 0 except `sg` for the density along the first axis. -/
def rhoSlope (sg : ℝ) : Fin 2 → State 2 := fun k v => if k = 0 ∧ v = .rho then sg else 0

theorem reconstruct_gas (t : ℤ) (r : Fin 2 → ℝ) (rho sg : ℝ) (off : Fin 2 → ℝ) :
    reconstruct (jumpUPar t).rp r (gasPrim rho) (rhoSlope sg) off =
      gasPrim (max (1 / 1000) (rho - 5 * sg * r 0 + off 0 * (sg / 2))) := by
  funext v
  cases v with
  | rho =>
    simp [reconstruct, gasPrim, rhoSlope, jumpUPar]
    congr 1
    ring
  | e => simp [reconstruct, gasPrim, rhoSlope]
  | mom j => simp [reconstruct, gasPrim, rhoSlope]

/-- Cells with densities 3, 2, `a` left of a face, 3 right of it and above and below. -/
structure Row (B : Block 2) (a : ℝ) : Prop where
  out : ∀ v : HV 2, B ![-2, 1] v.var = gas a v.var
  left : ∀ v : HV 2, B ![-1, 1] v.var = gas 2 v.var
  low : ∀ v : HV 2, B ![-1, 0] v.var = gas 3 v.var
  high : ∀ v : HV 2, B ![-1, 2] v.var = gas 3 v.var
  inner : ∀ p : Fin 2 → ℤ, (∀ i, 0 ≤ p i ∧ p i < 6) → ∀ v : HV 2, B p v.var = gas 3 v.var

theorem getPrim_gas {B : Block 2} {p : Fin 2 → ℤ} {rho : ℝ} (h : ∀ v : HV 2, B p v.var = gas rho v.var) (h1 : 1 ≤ rho)
    (h2 : rho ≤ 10) : getPrim (jumpUPar 1) B p = gasPrim rho := by
  rw [← toPrim_gas 1 h1 h2]
  unfold getPrim
  congr 1
  exact funext h

theorem Row.flux {B : Block 2} {a : ℝ} (h : Row B a) (ha : a = 1 ∨ a = 2) (dt : ℝ) {r : Fin 2 → ℝ} (hr : r 0 = 1 / 100) :
    processAxis (riemannHydro (jumpUPar 1).rp) rankPar (jumpUPar 1) dt r B ![0, 1] 0 true .rho =
      (2 + (2 - a) * (9 / 20)) / 10 := by
  have a1 : 1 ≤ a := by rcases ha with rfl | rfl <;> norm_num
  have a2 : a ≤ 10 := by rcases ha with rfl | rfl <;> norm_num
  have pl : (![0, 1] : Fin 2 → ℤ) + Pi.single 0 (-1) = ![-1, 1] := by decide
  have q1 := getPrim_gas h.left (by norm_num) (by norm_num)
  have q2 := getPrim_gas h.out a1 a2
  have q3 := getPrim_gas h.low (by norm_num) (by norm_num)
  have q4 := getPrim_gas h.high (by norm_num) (by norm_num)
  have q5 := fun p hp => getPrim_gas (h.inner p hp) (by norm_num) (by norm_num)
  have s1 : (fun j => slopes rankPar (jumpUPar 1) B j ![-1, 1]) = rhoSlope (2 - a) := by
    funext j v
    unfold slopes
    rw [if_pos (by decide)]
    fin_cases j
    · have e1 : (![-1, 1] : Fin 2 → ℤ) + Pi.single (0 : Fin 2) 1 = ![0, 1] := by decide
      have e2 : (![-1, 1] : Fin 2 → ℤ) - Pi.single (0 : Fin 2) 1 = ![-2, 1] := by decide
      simp only [Fin.zero_eta, e1, e2, q1, q2, q5 ![0, 1] (by decide)]
      cases v with
      | rho =>
        simp only [gasPrim, slopeScalar, jumpUPar, rhoSlope]
        rcases ha with rfl | rfl <;> norm_num
      | _ => simp [gasPrim, slopeScalar, rhoSlope]
    · have e1 : (![-1, 1] : Fin 2 → ℤ) + Pi.single (1 : Fin 2) 1 = ![-1, 2] := by decide
      have e2 : (![-1, 1] : Fin 2 → ℤ) - Pi.single (1 : Fin 2) 1 = ![-1, 0] := by decide
      simp only [Fin.mk_one, e1, e2, q1, q3, q4]
      cases v with
      | rho =>
        simp only [gasPrim, slopeScalar, jumpUPar, rhoSlope]
        norm_num
      | _ => simp [gasPrim, slopeScalar, rhoSlope]
  have s2 : (fun j => slopes rankPar (jumpUPar 1) B j ![0, 1]) = rhoSlope 0 := by
    funext j v
    unfold slopes
    rw [if_pos (by decide)]
    fin_cases j
    · have e1 : (![0, 1] : Fin 2 → ℤ) + Pi.single (0 : Fin 2) 1 = ![1, 1] := by decide
      have e2 : (![0, 1] : Fin 2 → ℤ) - Pi.single (0 : Fin 2) 1 = ![-1, 1] := by decide
      simp only [Fin.zero_eta, e1, e2, q1, q5 ![0, 1] (by decide), q5 ![1, 1] (by decide)]
      cases v with
      | rho =>
        simp only [gasPrim, slopeScalar, jumpUPar, rhoSlope]
        norm_num
      | _ => simp [gasPrim, slopeScalar, rhoSlope]
    · have e1 : (![0, 1] : Fin 2 → ℤ) + Pi.single (1 : Fin 2) 1 = ![0, 2] := by decide
      have e2 : (![0, 1] : Fin 2 → ℤ) - Pi.single (1 : Fin 2) 1 = ![0, 0] := by decide
      simp only [Fin.mk_one, e1, e2, q5 ![0, 1] (by decide), q5 ![0, 2] (by decide), q5 ![0, 0] (by decide)]
      cases v with
      | rho =>
        simp only [gasPrim, slopeScalar, jumpUPar, rhoSlope]
        norm_num
      | _ => simp [gasPrim, slopeScalar, rhoSlope]
  have hpr : ∀ q g, predict (jumpUPar 1) dt q g = q := by
    intro q g
    funext v
    cases v with
    | mom k => simp [predict, jumpUPar]
    | _ => rfl
  have hsw : ∀ q : State 2, swapDir 0 q = q := by
    intro q
    funext v
    cases v <;> simp [swapDir]
  unfold processAxis
  simp only [if_true, pl, hpr, hsw, s1, s2, q1, q5 ![0, 1] (by decide), reconstruct_gas]
  have m1 : max (1 / 1000) (2 - 5 * (2 - a) * r 0 + (Pi.single (0 : Fin 2) (((- -1 : ℤ)) : ℝ) : Fin 2 → ℝ) 0 *
      ((2 - a) / 2)) = 2 + (2 - a) * (9 / 20) := by
    rw [hr, max_eq_right (by rcases ha with rfl | rfl <;> norm_num [Pi.single_eq_same])]
    rw [Pi.single_eq_same]
    push_cast
    ring
  have m2 : max (1 / 1000) (3 - 5 * 0 * r 0 + (-(Pi.single (0 : Fin 2) (((- -1 : ℤ)) : ℝ)) : Fin 2 → ℝ) 0 * (0 / 2)) =
      (3 : ℝ) := by
    rw [max_eq_right (by norm_num)]
    ring
  rw [m1, m2, gas_flux 1 (by rcases ha with rfl | rfl <;> norm_num) (by rcases ha with rfl | rfl <;> norm_num) (by norm_num)
    (by norm_num)]
  simp [Fin.sum_univ_two, hr]
  ring

/-- **C94**, disagreement. On a mesh with a refined octant on three ranks (a state that the mesh reaches), velocity and
pressure are the same in all cells and the density changes next to the smaller octants. The rank of the larger octant has
density 2 left in its ghosts. With the two layers of the time loop it computes another density in a cell than the solver
does on the whole mesh. -/
theorem C94_two_layers_fail : ∃ s : Ranks 2 3, Reach 3 2 exGrid [exRefine] s ∧ (⟨1, ![1, 0]⟩ : Oct 2) ∈ s.octs 2 ∧
    ∃ U : Fin 3 → Mesh 2, Own s rankPar.b U rowGas ∧ ∀ B B', ∃ u v,
      cellOnRank (riemannHydro (jumpUPar 1).rp) rankPar (jumpUPar 1) (1 / 1200) (loopLayers rankPar) s U 2 B ⟨1, ![1, 0]⟩
        ![0, 1] = some u ∧
      step (riemannHydro (jumpUPar 1).rp) rankPar (jumpUPar 1) (1 / 1200) s.mesh rowGas B' ⟨1, ![1, 0]⟩ ![0, 1] = some v ∧
      v .rho = u .rho + 9 / 200 := by
  obtain ⟨s, hr, hl, -⟩ := C81_rank_emptied_fails
  have hs := (reach_good (P := 3) exGrid_wf (by decide) (by decide) (by decide) (by decide) (by decide) (by decide) hr).1
  have hm : s.mesh = exMesh.toFinset := by
    unfold Ranks.mesh leaves
    rw [hl]
    decide
  have o0 : s.octs 0 = [⟨2, ![0, 0]⟩, ⟨2, ![1, 0]⟩] := by
    have := congrArg (fun l : List (List (Oct 2)) => l[0]?) hl
    simpa using this
  have o2 : s.octs 2 = [⟨1, ![1, 0]⟩, ⟨1, ![0, 1]⟩, ⟨1, ![1, 1]⟩] := by
    have := congrArg (fun l : List (List (Oct 2)) => l[2]?) hl
    simpa using this
  have hin : (⟨1, ![1, 0]⟩ : Oct 2) ∈ s.octs 2 := by rw [o2]; decide
  set U : Fin 3 → Mesh 2 := fun r o x => if owner s.octs o = r then rowGas o x else gas 2 with hU
  have hown : Own s rankPar.b U rowGas := fun r o ho x _ => if_pos (Sim.owner_eq hs ho)
  refine ⟨s, hr, hin, U, hown, fun B B' => ?_⟩
  have hlay : loopLayers rankPar = 2 := by decide
  rw [hlay]
  -- both blocks
  obtain ⟨h1, h2⟩ := exchanged_agree (P := rankPar) exGrid_wf hs (gc := 2) hown hin
  obtain ⟨B1, B2, f1, f2, e1, -⟩ := fill_agree (P := rankPar) (Sim.around exGrid_wf hs hin) rfl (by decide)
    (by unfold PeriodicOk; decide) (t := 1) (by norm_num) (Or.inl (by norm_num)) h1 h2 B B'
  have f1' := f1
  rw [fillGhosts_map (Sim.around exGrid_wf hs hin), hm] at f1'
  have f2' := f2
  rw [hm] at f2'
  obtain ⟨C1, g1, v1, i1⟩ := gas_ghost (exchangeLayers s rankPar.b 2 U 2) B
  obtain ⟨C2, g2, v2, i2⟩ := gas_ghost rowGas B'
  rw [f1'] at g1
  rw [f2'] at g2
  cases g1
  cases g2
  have hcop : ∀ v : HV 2, Copied rankPar v.var := fun v => by cases v <;> exact trivial
  have hdens : ∀ x : Fin 2 → ℕ, x 1 / 2 = 1 → rowDensity ⟨2, ![1, 0]⟩ x = if x 0 / 2 = 1 then 1 else if x 0 / 2 = 2 then 2 else 3 :=
    fun x h => if_pos ⟨rfl, h⟩
  have hrow2 : Row B2 1 := by
    refine ⟨?_, ?_, ?_, ?_, fun p hp v => ?_⟩
    · refine v2 4 1 (Or.inl rfl) (by norm_num) 1 fun x h0 h1 => ?_
      unfold rowGas
      rw [hdens x (by omega), if_pos (by omega)]
    · refine v2 5 1 (Or.inr rfl) (by norm_num) 2 fun x h0 h1 => ?_
      unfold rowGas
      rw [hdens x (by omega), if_neg (by omega), if_pos (by omega)]
    · refine v2 5 0 (Or.inr rfl) (by norm_num) 3 fun x h0 h1 => ?_
      unfold rowGas rowDensity
      rw [if_neg fun h => by omega]
    · refine v2 5 2 (Or.inr rfl) (by norm_num) 3 fun x h0 h1 => ?_
      unfold rowGas rowDensity
      rw [if_neg fun h => by omega]
    · rw [i2 p hp v]
      unfold rowGas rowDensity
      rw [if_neg fun h => absurd h.1 (by decide)]
  have hrow1 : Row B1 2 := by
    refine ⟨?_, fun v => (e1 _ (by decide) _ (hcop v)).trans (hrow2.left v),
      fun v => (e1 _ (by decide) _ (hcop v)).trans (hrow2.low v), fun v => (e1 _ (by decide) _ (hcop v)).trans (hrow2.high v),
      fun p hp v => (e1 _ (fun i => ?_) _ (hcop v)).trans (hrow2.inner p hp v)⟩
    · refine v1 4 1 (Or.inl rfl) (by norm_num) 2 fun x h0 h1 => ?_
      have hn : ∀ F, ¬ Partition.InLayers rankPar.b 2 F x := by
        rintro F ⟨⟨j, sd⟩, -, h⟩
        have := h0
        have := h1
        fin_cases j <;> cases sd <;> simp [rankPar, legPar] at h <;> omega
      have ho : owner s.octs ⟨2, ![1, 0]⟩ = 0 := Sim.owner_eq hs (by rw [o0]; decide)
      unfold exchangeLayers
      rw [if_neg fun h => hn _ h.2]
      show (if owner s.octs ⟨2, ![1, 0]⟩ = 2 then rowGas ⟨2, ![1, 0]⟩ x else gas 2) = gas 2
      rw [ho]
      exact if_neg (by decide)
    · have := hp i
      fin_cases i <;> simp [rankPar, legPar] at this ⊢ <;> omega
  unfold cellOnRank step
  rw [f1, f2, Option.bind_some, Option.bind_some]
  have hupd : ∀ B, updateCell (riemannHydro (jumpUPar 1).rp) rankPar (jumpUPar 1) (1 / 1200) ⟨1, ![1, 0]⟩ B ![0, 1] =
      some (allFaces (riemannHydro (jumpUPar 1).rp) rankPar (jumpUPar 1) (1 / 1200)
        (dtdx rankPar (jumpUPar 1) (1 / 1200) ⟨1, ![1, 0]⟩) B ![0, 1]) := by
    intro B
    unfold updateCell
    rw [if_neg (by simp [jumpUPar])]
    unfold correct
    simp only
    rw [if_pos (show (jumpUPar 1).gravity = .none from rfl)]
    have : (fun i => ((![0, 1] : Fin 2 → ℕ) i : ℤ)) = ![0, 1] := by decide
    rw [this]
  rw [hupd, hupd]
  refine ⟨_, _, rfl, rfl, ?_⟩
  have hpred : ∀ c q, predict (jumpUPar 1) (1 / 1200) q (getGravity (jumpUPar 1) B1 c) =
      predict (jumpUPar 1) (1 / 1200) q (getGravity (jumpUPar 1) B2 c) := fun c q => predict_congr (Or.inl (Or.inr rfl)) q
  have hface : ∀ k left, ¬ (k = 0 ∧ left = true) →
      processAxis (riemannHydro (jumpUPar 1).rp) rankPar (jumpUPar 1) (1 / 1200)
        (dtdx rankPar (jumpUPar 1) (1 / 1200) ⟨1, ![1, 0]⟩) B1 ![0, 1] k left =
      processAxis (riemannHydro (jumpUPar 1).rp) rankPar (jumpUPar 1) (1 / 1200)
        (dtdx rankPar (jumpUPar 1) (1 / 1200) ⟨1, ![1, 0]⟩) B2 ![0, 1] k left := by
    intro k left hk
    refine processAxis_congr (by decide) (by decide) (fun c _ q => hpred c q) (fun q hq _ v => e1 q (fun i => ?_) _ (hcop v)) _
    obtain ⟨c, hc, hq⟩ := hq
    have hq : q = c ∨ ∃ j, q = c + Pi.single j 1 ∨ q = c - Pi.single j 1 := hq.imp id fun h => h.2
    revert i
    fin_cases k <;> cases left <;> simp only [Fin.zero_eta, Fin.mk_one, not_true_eq_false, and_self, and_true,
      Fin.exists_fin_two] at hk hc hq
    all_goals rcases hc with rfl | rfl <;> rcases hq with rfl | (rfl | rfl) | (rfl | rfl) <;> decide
  have hdt : dtdx rankPar (jumpUPar 1) (1 / 1200) ⟨1, ![1, 0]⟩ 0 = 1 / 100 := by
    have : getSize exGrid (⟨1, ![1, 0]⟩ : Oct 2) 0 = 1 / 2 := by decide +kernel
    unfold dtdx
    show (1 / 1200 : ℝ) / (((getSize exGrid (⟨1, ![1, 0]⟩ : Oct 2) 0 : ℚ) : ℝ) * 1 / ((6 : ℕ) : ℝ)) = 1 / 100
    rw [this]
    norm_num
  unfold allFaces
  simp only [Pi.add_apply, Fin.sum_univ_two]
  rw [hface 0 false (by simp), hface 1 true (by simp), hface 1 false (by simp), hrow1.flux (Or.inr rfl) _ hdt,
    hrow2.flux (Or.inl rfl) _ hdt]
  have ec : getCons B1 ![0, 1] .rho = getCons B2 ![0, 1] .rho := e1 _ (by decide) _ trivial
  rw [ec]
  ring

/-! ### Cases that meet the hypotheses -/

/-- The same mesh, with the values of the disagreement: all cells of the octant are right with four layers, and with the
two layers of the time loop those that are not in the outermost layer of the block, from any Riemann solver. -/
example : ∃ s : Ranks 2 3, Reach 3 2 exGrid [exRefine] s ∧ (⟨1, ![1, 0]⟩ : Oct 2) ∈ s.octs 2 ∧
    ∀ (RS : State 2 → State 2 → State 2) (U : Fin 3 → Mesh 2), Own s rankPar.b U rowGas → ∀ B B',
      cellOnRank RS rankPar (jumpUPar 1) (1 / 1200) 4 s U 2 B ⟨1, ![1, 0]⟩ ![0, 1] =
        step RS rankPar (jumpUPar 1) (1 / 1200) s.mesh rowGas B' ⟨1, ![1, 0]⟩ ![0, 1] ∧
      cellOnRank RS rankPar (jumpUPar 1) (1 / 1200) (loopLayers rankPar) s U 2 B ⟨1, ![1, 0]⟩ ![1, 1] =
        step RS rankPar (jumpUPar 1) (1 / 1200) s.mesh rowGas B' ⟨1, ![1, 0]⟩ ![1, 1] := by
  obtain ⟨s, hr, hin, -⟩ := C94_two_layers_fail
  exact ⟨s, hr, hin, fun RS U hU B B' =>
    ⟨C94_four_layers (P := rankPar) (N := 3) exGrid_wf (by decide) (by decide) (by decide) (by decide) (by decide) (by decide)
      rfl (by decide) (by unfold PeriodicOk; decide) RS (fun h => by cases h) _ hr hU (le_refl 4) hin (by decide) B B',
    C94_two_layers_partial (P := rankPar) (N := 3) exGrid_wf (by decide) (by decide) (by decide) (by decide) (by decide)
      (by decide) rfl (by decide) (by unfold PeriodicOk; decide) RS (fun h => by cases h) _ hr hU hin (by decide)
      (Or.inr ⟨Or.inr rfl, Or.inl (by decide)⟩) B B'⟩⟩

/-- Blocks of 4 × 4 × 4 cells in a periodic box of 4 × 4 × 4 octants, with a gravity field. -/
def boxPar : Par 3 := ⟨⟨2, fun _ => 4, fun _ => true⟩, fun _ => 4, 2, fun _ => .periodic, fun _ => .periodic, true⟩

theorem boxPar_wf : boxPar.G.WF := ⟨⟨by decide⟩, by decide⟩

def boxUPar : UPar 3 := ⟨⟨2, 1 / 1000, 1 / 1000, 1 / 1000⟩, .cstField, 0, 1, fun _ => 1, true⟩

/-- Eight ranks and one rank update every cell of an octant that both have in the same way. -/
example : ∃ (s : Ranks 3 8) (t : Ranks 3 1), Reach 3 4 boxPar.G [] s ∧ Reach 3 4 boxPar.G [] t ∧
    ∀ (U : Fin 8 → Mesh 3) (V : Fin 1 → Mesh 3), SameCells s t boxPar.b U V → ∀ r o, o ∈ s.octs r → ∀ x : Fin 3 → ℕ,
      (∀ k, x k < 4) → ∀ B B',
      cellOnRank (riemannHydro boxUPar.rp) boxPar boxUPar (1 / 100) (loopLayers boxPar) s U r B o x =
        cellOnRank (riemannHydro boxUPar.rp) boxPar boxUPar (1 / 100) (loopLayers boxPar) t V 0 B' o x := by
  obtain ⟨⟨s, es⟩, -⟩ := C81_progress_partial (P := 8) (e := 3) (L := 4) boxPar_wf (by decide) (by decide) (by decide)
    (by decide) (by decide) (by decide)
  obtain ⟨⟨t, et⟩, -⟩ := C81_progress_partial (P := 1) (e := 3) (L := 4) boxPar_wf (by decide) (by decide) (by decide)
    (by decide) (by decide) (by decide)
  have rs : Reach 3 4 boxPar.G [] s := Reach.start es
  have rt : Reach 3 4 boxPar.G [] t := Reach.start et
  refine ⟨s, t, rs, rt, fun U V hUV r o ho x hx B B' => ?_⟩
  obtain ⟨hs, ms⟩ := reach_good boxPar_wf (by decide) (by decide) (by decide) (by decide) (by decide) (by decide) rs
  obtain ⟨ht, mt⟩ := reach_good boxPar_wf (by decide) (by decide) (by decide) (by decide) (by decide) (by decide) rt
  have hm : s.mesh = t.mesh := ms.unique mt
  have ho' : o ∈ t.octs 0 := by
    have := owner_mem t.octs (show o ∈ t.mesh by rw [← hm]; exact Sim.mem_mesh ho)
    rwa [Subsingleton.elim (owner t.octs o) 0] at this
  refine C94_independent_of_ranks_partial (P := boxPar) boxPar_wf (by decide) (by decide) (by decide) (by decide) (by decide)
    (by decide) rfl (by decide) (by unfold PeriodicOk; decide) _ (fun _ => rfl) _ (by decide) rs rt hUV ho ho' hx ?_ B B'
  have hlev : ∀ a ∈ s.mesh, a.level = 2 := by
    generalize hM : s.mesh = M at ms
    cases ms with
    | start h => exact fun a ha => ((h a).1 ha).1
  exact Or.inl fun a ha _ => by rw [hlev a ha, hlev o (Sim.mem_mesh ho)]

end

end Verif.Legacy
