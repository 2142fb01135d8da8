import Verif.Sim.BlockProps
import Verif.Sim.Conditions
import Verif.Parabolic.Conduction
import Verif.Parabolic.ViscosityMesh
import Verif.Cooling.FluxFlux

/-!
# C105: viscosity, heat conduction and cooling on all ranks

After the hydro update the time loop adds these terms to the new state (`DyabloTimeLoop.h` L722-727). They read the state before
the update, with the ghosts that were exchanged once, before the hydro update (L673-675). One cell is in
`Verif.Parabolic.ViscosityMesh`, `Verif.Parabolic.Conduction` and `Verif.Cooling.FluxFlux`.
-/

namespace Verif.Sim

open Verif.Octree Verif.Cells Verif.Adapt Verif.Flux Verif.Hydro Verif.Run Verif.Parabolic
open Verif.Partition (Within within_of_dirAdj)

variable {d P Q : ℕ} {K ι ν : Type} [Field K] [LinearOrder K] [DecidableEq ι]

/-! ### Model -/

/-- The terms that are switched on (`DyabloTimeLoop.h` L389-414). -/
structure Terms (d : ℕ) (K ι : Type) where
  /-- The variables that the terms change. -/
  mom : Fin 3 → ι
  energy : ι
  /-- Coefficient, velocity of a state, and `zmax - zmin` (see `size3`). -/
  viscosity : Option (K × ((ι → K) → Fin 3 → K) × ℚ)
  conduction : Option (Conduction d K (ι → K))
  /-- Layer, flux and the vertical direction. -/
  cooling : Option (Cooling.Layer × ℚ × Fin d)

/-- `ParabolicUpdate_explicit.cpp` L143-147 with the right hand side of `ParabolicTerm_viscosity.h` L223-226. -/
def Terms.addFlow (T : Terms d K ι) (dt : K) (f : Viscosity.Flow K) (v : ι → K) (i : ι) : K :=
  v i + dt * if i = T.energy then f.e else if i = T.mom 0 then f.u else if i = T.mom 1 then f.v
    else if i = T.mom 2 then f.w else 0

/-- The same with the right hand side of `ParabolicTerm_thermal_conduction.h` L252-256. -/
def Terms.addEnergy (T : Terms d K ι) (dt : K) (e : K) (v : ι → K) (i : ι) : K :=
  v i + dt * if i = T.energy then e else 0

/-- Viscosity in one cell: `U` is the state before the hydro update, `v` what is in the output array. -/
def viscousCell (C : Blocks d K ι) (T : Terms d K ι) (M : Finset (Oct d)) (dt : K) (U : Oct d → (Fin d → ℕ) → ι → K)
    (o : Oct d) (x : Fin d → ℕ) (v : ι → K) : Option (ι → K) :=
  match T.viscosity with
  | none => some v
  | some (mu, vel, Lz) => (fillPatch (C.source U) C.grid M C.blk o).bind fun _ =>
      (Viscosity.rhsCell mu vel (C.source U) Lz C.dom C.grid M C.blk o x).map fun f => T.addFlow dt f v

/-- Heat conduction in one cell. -/
def conductCell (C : Blocks d K ι) (T : Terms d K ι) (M : Finset (Oct d)) (dt : K) (U : Oct d → (Fin d → ℕ) → ι → K)
    (o : Oct d) (x : Fin d → ℕ) (v : ι → K) : Option (ι → K) :=
  match T.conduction with
  | none => some v
  | some H => (fillPatch (C.source U) C.grid M C.blk o).bind fun _ =>
      (rhs H (C.source U) C.dom C.grid M C.blk o x).map fun e => T.addEnergy dt e v

/-- Cooling in one cell (`CoolingUpdate_FF.cpp` L81-107). -/
def coolCell (C : Blocks d K ι) (T : Terms d K ι) (dt : K) (o : Oct d) (x : Fin d → ℕ) (v : ι → K) : ι → K :=
  match T.cooling with
  | none => v
  | some (mode, flux, j) =>
      let c : CellIndex d := ⟨o, x, C.blk, .localToBlock⟩
      T.addEnergy dt ((Cooling.heating mode flux (C.dom.xmin j) (C.dom.xmax j) (getCellCenter C.dom C.grid c j)
        (getCellSize C.dom C.grid c j) : ℚ) : K) v

/-- `DyabloTimeLoop.h` L722-727 for one cell. Each term is a sweep over all cells; as it only reads `U` and adds to the cell
itself, the three can be done cell by cell. -/
def Terms.cell (C : Blocks d K ι) (T : Terms d K ι) (M : Finset (Oct d)) (dt : K) (U : Oct d → (Fin d → ℕ) → ι → K)
    (o : Oct d) (x : Fin d → ℕ) (v : ι → K) : Option (ι → K) :=
  (viscousCell C T M dt U o x v).bind fun v => (conductCell C T M dt U o x v).map fun v => coolCell C T dt o x v

open Classical in
/-- The terms on all ranks. `hydro` is the number of ghost layers of the hydro solver (L311-321), `U` the state before the
hydro update with any ghosts, `V` the state after it. -/
noncomputable def termsStep [NeZero P] (C : Blocks d K ι) (T : Terms d K ι) (s : Ranks d P) (hydro : ℕ) (dt : K)
    (U V : Fin P → Oct d → (Fin d → ℕ) → ι → K) : Option (Fin P → Oct d → (Fin d → ℕ) → ι → K) :=
  let W := exchangeLayers s C.blk (ghostCount C.blk hydro) U
  if ∀ r, ∀ o ∈ s.octs r, ∀ x ∈ cells C.blk, (T.cell C (rankMap s r) dt (W r) o x (V r o x)).isSome then
    some fun r o x => (T.cell C (rankMap s r) dt (W r) o x (V r o x)).getD (V r o x)
  else none

/-- The hydro update and the terms: `DyabloTimeLoop.h` L673-675 and L708-727. -/
noncomputable def stageStep [NeZero P] (C : Blocks d K ι) (k : Kernel d K ι ν) (T : Terms d K ι) (s : Ranks d P) (dt : K)
    (U : Fin P → Oct d → (Fin d → ℕ) → ι → K) : Option (Fin P → Oct d → (Fin d → ℕ) → ι → K) :=
  (blockStep C k s dt U).bind fun V => termsStep C T s k.layers dt U V

/-- The same with `HydroUpdate_RK2`. -/
noncomputable def rk2StageStep [NeZero P] (C : Blocks d K ι) (E : ι → Euler.Scheme d K ν (ι → K)) (T : Terms d K ι)
    (s : Ranks d P) (dt : K) (U old : Fin P → Oct d → (Fin d → ℕ) → ι → K) :
    Option (Fin P → Oct d → (Fin d → ℕ) → ι → K) :=
  (rk2Step C E s dt U old).bind fun V => termsStep C T s 2 dt U V

/-! ### Specification -/

open Classical in
/-- The terms on the whole mesh, without ranks and ghosts. -/
noncomputable def globalTerms (C : Blocks d K ι) (T : Terms d K ι) (M : Finset (Oct d)) (dt : K)
    (U V : Oct d → (Fin d → ℕ) → ι → K) : Option (Oct d → (Fin d → ℕ) → ι → K) :=
  if ∀ o ∈ M, ∀ x : Fin d → ℕ, (∀ k, x k < C.blk k) → (T.cell C M dt U o x (V o x)).isSome then
    some fun o x => (T.cell C M dt U o x (V o x)).getD (V o x)
  else none

noncomputable def globalStage (C : Blocks d K ι) (k : Kernel d K ι ν) (T : Terms d K ι) (M : Finset (Oct d)) (dt : K)
    (U : Oct d → (Fin d → ℕ) → ι → K) : Option (Oct d → (Fin d → ℕ) → ι → K) :=
  (globalBlock C k M dt U).bind fun V => globalTerms C T M dt U V

noncomputable def globalRK2Stage (C : Blocks d K ι) (E : ι → Euler.Scheme d K ν (ι → K)) (T : Terms d K ι)
    (M : Finset (Oct d)) (dt : K) (U : Oct d → (Fin d → ℕ) → ι → K) : Option (Oct d → (Fin d → ℕ) → ι → K) :=
  (globalRK2 C E M dt U).bind fun V => globalTerms C T M dt U V

/-! ### One cell on a rank -/

section
variable {V : Type} {G : Grid d} {M Mr : Finset (Oct d)} {b : Fin d → ℕ} {o : Oct d} {x : Fin d → ℕ} {I I' : Source d V}

theorem off3_small (e f g : ℤ) (he : e ∈ [-1, 0, 1]) (hf : f ∈ [-1, 0, 1]) (hg : g ∈ [-1, 0, 1]) (k : Fin d) :
    -1 ≤ Viscosity.off3 d e f g k ∧ Viscosity.off3 d e f g k ≤ 1 := by
  simp only [List.mem_cons, List.not_mem_nil, or_false] at he hf hg
  unfold Viscosity.off3
  split
  · omega
  · split <;> omega

omit [LinearOrder K] [DecidableEq ι] in
/-- Viscosity: two layers are enough. -/
theorem viscous_same (h : Around G M Mr o) (hb : ∀ k, 4 ≤ b k ∧ 2 ∣ b k) (hx : ∀ k, x k < b k) {n : ℕ} (hn : 2 ≤ n)
    (hI : SameSource G b n M o I I') (mu : K) (vel : V → Fin 3 → K) (Lz : ℚ) (D : Domain d) :
    Viscosity.rhsCell mu vel I Lz D G Mr b o x = Viscosity.rhsCell mu vel I' Lz D G M b o x := by
  have hv : ∀ e ∈ [(-1 : ℤ), 0, 1], ∀ f ∈ [(-1 : ℤ), 0, 1], ∀ g ∈ [(-1 : ℤ), 0, 1],
      Viscosity.velAt vel I G Mr b o x e f g = Viscosity.velAt vel I' G M b o x e f g := by
    intro e he f hf g hg
    unfold Viscosity.velAt
    rw [patchRead_next h hb hx hn hI (off3_small e f g he hf hg)]
  unfold Viscosity.rhsCell
  have hc : ([-1, 0, 1].all fun e => [-1, 0, 1].all fun f => [-1, 0, 1].all fun g =>
      (Viscosity.velAt vel I G Mr b o x e f g).isSome) = ([-1, 0, 1].all fun e => [-1, 0, 1].all fun f =>
      [-1, 0, 1].all fun g => (Viscosity.velAt vel I' G M b o x e f g).isSome) := by
    refine Bool.eq_iff_iff.2 ?_
    simp only [List.all_eq_true]
    constructor
    · intro k e he f hf g hg
      rw [← hv e he f hf g hg]
      exact k e he f hf g hg
    · intro k e he f hf g hg
      rw [hv e he f hf g hg]
      exact k e he f hf g hg
  rw [hc]
  congr 2
  refine Viscosity.rhs_congr _ _ _ fun e he f hf g hg => ?_
  rw [hv e (by simpa using he) f (by simpa using hf) g (by simpa using hg)]

omit [LinearOrder K] [DecidableEq ι] in
theorem conduct_iface_same (h : Around G M Mr o) (hb : ∀ k, 4 ≤ b k ∧ 2 ∣ b k) (hx : ∀ k, x k < b k) {n : ℕ} (hn : 2 ≤ n)
    (hI : SameSource G b n M o I I') (H : Conduction d K V) (D : Domain d) (j : Fin d) {s : ℤ} (hs : s = 1 ∨ s = -1) :
    iface H I D G Mr b o x j s = iface H I' D G M b o x j s := by
  have hself := around_mesh h
  have h0 : patchRead I G Mr b o (fun k => (x k : ℤ)) = patchRead I' G M b o fun k => (x k : ℤ) := by
    rw [patchRead_mesh h hb, patchRead_interior hx, patchRead_interior hx, hI.values.1 x hx]
  have h1 : Euler.nextTo I G Mr b o x j s = Euler.nextTo I' G M b o x j s := by
    unfold Euler.nextTo
    exact patchRead_next h hb hx hn hI fun k => faceOff_small j hs k
  obtain ⟨r, e1, e2, e3⟩ := reads h.wf h.tiling h.balanced h.sub ⟨o, x, b, .localToBlock⟩ (h.sub _ h.mem) h.complete hx rfl j hs
  unfold iface
  rw [h0, e1, e2]
  refine Option.bind_congr fun uC _ => ?_
  simp only [Option.bind_some]
  congr 1
  split
  · rw [h1]
  · next hl =>
    rcases e3 with e3 | ⟨-, -, -, ⟨e3, -⟩ | ⟨-, f, hf⟩⟩
    · exfalso; apply hl; unfold CellIndex.levelDiff; rw [e3]; decide
    · exfalso; apply hl; omega
    · have hr : foreachSmallerNeighbor true G Mr r (faceOff j s) =
          ((loops fun k => if faceOff j s k = 0 then [(0 : ℤ), 1] else [0]).map f).map some := by
        unfold foreachSmallerNeighbor
        rw [List.map_map]
        refine List.map_congr_left fun δ hδ => ?_
        show getSiblingCell true G Mr r δ = _
        unfold getSiblingCell
        exact (hf δ hδ).2.1
      have hm : foreachSmallerNeighbor true G M r (faceOff j s) =
          ((loops fun k => if faceOff j s k = 0 then [(0 : ℤ), 1] else [0]).map f).map some := by
        unfold foreachSmallerNeighbor
        rw [List.map_map]
        refine List.map_congr_left fun δ hδ => ?_
        show getSiblingCell true G M r δ = _
        unfold getSiblingCell
        exact (hf δ hδ).1
      rw [hr, hm, mapM_id_some, Option.map_some, Option.map_some, List.map_map, List.map_map]
      congr 4
      refine List.map_congr_left fun δ hδ => ?_
      obtain ⟨-, -, -, f4, f5, f6⟩ := hf δ hδ
      show _ * tempDiff s _ (H.temp (I.U (f δ).oct (f δ).idx)) = _ * tempDiff s _ (H.temp (I'.U (f δ).oct (f δ).idx))
      rw [near_value hself hb hx hn hI (h.sub _ f4) f5 f6]

omit [LinearOrder K] [DecidableEq ι] in
/-- Conduction: two layers are enough. -/
theorem conduct_same (h : Around G M Mr o) (hb : ∀ k, 4 ≤ b k ∧ 2 ∣ b k) (hx : ∀ k, x k < b k) {n : ℕ} (hn : 2 ≤ n)
    (hI : SameSource G b n M o I I') (H : Conduction d K V) (D : Domain d) :
    rhs H I D G Mr b o x = rhs H I' D G M b o x := by
  unfold rhs
  congr 1
  refine mapM_congr' fun j _ => ?_
  rw [conduct_iface_same h hb hx hn hI H D j (Or.inr rfl), conduct_iface_same h hb hx hn hI H D j (Or.inl rfl)]

end

/-! ### All ranks -/

section
variable [NeZero P] {C : Blocks d K ι} {e L : ℕ} {s : Ranks d P}

omit [LinearOrder K] in
theorem cell_same (hG : C.grid.WF) (hs : Good e L C.grid s) (hb : ∀ k, 4 ≤ C.blk k ∧ 2 ∣ C.blk k) (T : Terms d K ι)
    {gc : ℕ} (hgc : 2 ≤ gc) (dt : K) {U : Fin P → Oct d → (Fin d → ℕ) → ι → K} {g : Oct d → (Fin d → ℕ) → ι → K}
    (hU : Own s C.blk U g) {r : Fin P} {o : Oct d} (ho : o ∈ s.octs r) {x : Fin d → ℕ} (hx : ∀ k, x k < C.blk k) (v : ι → K) :
    T.cell C (rankMap s r) dt (exchangeLayers s C.blk gc U r) o x v = T.cell C s.mesh dt g o x v := by
  have ha := around hG hs ho
  have hI := source_same (agree_exchanged hG hs hgc hU ho)
  have hv : ∀ v, viscousCell C T (rankMap s r) dt (exchangeLayers s C.blk gc U r) o x v = viscousCell C T s.mesh dt g o x v := by
    intro v
    unfold viscousCell
    split
    · rfl
    · rw [fillPatch_same ha hb, viscous_same ha hb hx (le_refl 2) hI]
  have hc : ∀ v, conductCell C T (rankMap s r) dt (exchangeLayers s C.blk gc U r) o x v = conductCell C T s.mesh dt g o x v := by
    intro v
    unfold conductCell
    split
    · rfl
    · rw [fillPatch_same ha hb, conduct_same ha hb hx (le_refl 2) hI]
  unfold Terms.cell
  rw [hv]
  exact Option.bind_congr fun w _ => by rw [hc]

omit [LinearOrder K] in
theorem termsStep_same (hG : C.grid.WF) (hs : Good e L C.grid s) (hb : ∀ k, 4 ≤ C.blk k ∧ 2 ∣ C.blk k) (T : Terms d K ι)
    {hydro : ℕ} (h2 : 2 ≤ hydro) (h4 : hydro ≤ 4) (dt : K) {U V : Fin P → Oct d → (Fin d → ℕ) → ι → K}
    {g f : Oct d → (Fin d → ℕ) → ι → K} (hU : Own s C.blk U g) (hV : Own s C.blk V f) :
    Both (Own s C.blk) (termsStep C T s hydro dt U V) (globalTerms C T s.mesh dt g f) := by
  have hgc : ghostCount C.blk hydro = hydro := ghostCount_eq fun k => by have := (hb k).1; omega
  have hcell := fun (r : Fin P) (o : Oct d) (ho : o ∈ s.octs r) (x : Fin d → ℕ) (hx : ∀ k, x k < C.blk k) (v : ι → K) =>
    cell_same hG hs hb T h2 dt hU ho hx v
  have hiff : (∀ r, ∀ o ∈ s.octs r, ∀ x ∈ cells C.blk,
      (T.cell C (rankMap s r) dt (exchangeLayers s C.blk hydro U r) o x (V r o x)).isSome) ↔
      ∀ o ∈ s.mesh, ∀ x : Fin d → ℕ, (∀ k, x k < C.blk k) → (T.cell C s.mesh dt g o x (f o x)).isSome := by
    constructor
    · intro h o ho x hx
      rw [← hcell _ o (owner_mem _ ho) x hx, ← hV _ o (owner_mem _ ho) x hx]
      exact h _ o (owner_mem _ ho) x (mem_cells.2 hx)
    · intro h r o ho x hx
      rw [hcell r o ho x (mem_cells.1 hx), hV r o ho x (mem_cells.1 hx)]
      exact h o (mem_mesh ho) x (mem_cells.1 hx)
  unfold termsStep globalTerms
  simp only [hgc]
  by_cases h : ∀ o ∈ s.mesh, ∀ x : Fin d → ℕ, (∀ k, x k < C.blk k) → (T.cell C s.mesh dt g o x (f o x)).isSome
  · rw [if_pos h, if_pos (hiff.2 h)]
    refine Or.inl ⟨_, _, rfl, rfl, fun r o ho x hx => ?_⟩
    simp only [hcell r o ho x hx, hV r o ho x hx]
  · rw [if_neg h, if_neg (mt hiff.1 h)]
    exact Or.inr ⟨rfl, rfl⟩

omit [Field K] [LinearOrder K] [DecidableEq ι] in
/-- Results of a step that are equal go into a next step. -/
theorem Both.bind {A B A' B' : Type} {R : A → B → Prop} {S : A' → B' → Prop} {x : Option A} {y : Option B}
    {f : A → Option A'} {g : B → Option B'} (h : Both R x y) (hf : ∀ a c, R a c → Both S (f a) (g c)) :
    Both S (x.bind f) (y.bind g) := by
  rcases h with ⟨a, c, e1, e2, e3⟩ | ⟨e1, e2⟩
  · rw [e1, e2]
    exact hf a c e3
  · rw [e1, e2]
    exact Or.inr ⟨rfl, rfl⟩

omit [Field K] [LinearOrder K] [DecidableEq ι] in
theorem layers_le (k : Kernel d K ι ν) : 2 ≤ k.layers ∧ k.layers ≤ 4 := by cases k <;> simp [Kernel.layers]

end

section
variable [NeZero P] [NeZero Q] {C : Blocks d K ι} {e L : ℕ}
  (hG : C.grid.WF) (hd : 0 < d) (hde : d ≤ e) (h64 : e * L < 64) (hL : C.grid.lmin ≤ L)
  (hT : ∏ i, C.grid.coarse i < 2 ^ 32) (hP : P ≤ ∏ i, C.grid.coarse i) (hQ : Q ≤ ∏ i, C.grid.coarse i)
  (hb : ∀ k, 4 ≤ C.blk k ∧ 2 ∣ C.blk k)
include hG hd hde h64 hL hT hP hb

omit hQ [LinearOrder K] in
/-- **C105.** At any time of a run on any number of ranks, with two to four layers of ghosts and whatever the other ghosts contain:
viscosity, conduction and cooling leave in the cells of all ranks what they leave there on the whole mesh. -/
theorem C105_terms_of_the_mesh {mks : List (Oct d → ℤ)} {s : Ranks d P} (h : Reach e L C.grid mks s) (T : Terms d K ι)
    {hydro : ℕ} (h2 : 2 ≤ hydro) (h4 : hydro ≤ 4) (dt : K) (U V : Fin P → Oct d → (Fin d → ℕ) → ι → K) :
    Both (Own s C.blk) (termsStep C T s hydro dt U V)
      (globalTerms C T s.mesh dt (fun o => U (owner s.octs o) o) fun o => V (owner s.octs o) o) := by
  have hs := (reach_good hG hd hde h64 hL hT hP h).1
  exact termsStep_same hG hs hb T h2 h4 dt (fun r o ho x _ => by rw [owner_eq hs ho]) fun r o ho x _ => by rw [owner_eq hs ho]

omit hQ in
/-- **C105.** The same for the hydro update followed by the terms, with ghosts exchanged once. -/
theorem C105_stage_of_the_mesh {mks : List (Oct d → ℤ)} {s : Ranks d P} (h : Reach e L C.grid mks s) (k : Kernel d K ι ν)
    (T : Terms d K ι) (dt : K) (U : Fin P → Oct d → (Fin d → ℕ) → ι → K) :
    Both (Own s C.blk) (stageStep C k T s dt U) (globalStage C k T s.mesh dt fun o => U (owner s.octs o) o) := by
  have hs := (reach_good hG hd hde h64 hL hT hP h).1
  have hU : Own s C.blk U fun o => U (owner s.octs o) o := fun r o ho x _ => by
    show _ = U (owner s.octs o) o x
    rw [owner_eq hs ho]
  exact (blockStep_same hG hs hb k dt hU).bind fun V f hV =>
    termsStep_same hG hs hb T (layers_le k).1 (layers_le k).2 dt hU hV

omit hQ in
/-- **C105.** The same with `HydroUpdate_RK2`. -/
theorem C105_rk2_of_the_mesh {mks : List (Oct d → ℤ)} {s : Ranks d P} (h : Reach e L C.grid mks s)
    (E : ι → Euler.Scheme d K ν (ι → K)) (T : Terms d K ι) (dt : K) (U old : Fin P → Oct d → (Fin d → ℕ) → ι → K) :
    Both (Own s C.blk) (rk2StageStep C E T s dt U old) (globalRK2Stage C E T s.mesh dt fun o => U (owner s.octs o) o) := by
  have hs := (reach_good hG hd hde h64 hL hT hP h).1
  have hU : Own s C.blk U fun o => U (owner s.octs o) o := fun r o ho x _ => by
    show _ = U (owner s.octs o) o x
    rw [owner_eq hs ho]
  exact (rk2Step_same hG hs hb E dt old hU).bind fun V f hV => termsStep_same hG hs hb T (le_refl 2) (by norm_num) dt hU hV

include hQ

/-- **C105.** Two runs with the same markers, on different numbers of ranks, with different load balancing and different
contents of ghosts: if the state is equal in all cells, so is the state after the hydro update and the terms. -/
theorem C105_independent_of_ranks {mks : List (Oct d → ℤ)} {s : Ranks d P} {t : Ranks d Q} (h : Reach e L C.grid mks s)
    (h' : Reach e L C.grid mks t) (k : Kernel d K ι ν) (T : Terms d K ι) (dt : K) {U : Fin P → Oct d → (Fin d → ℕ) → ι → K}
    {V : Fin Q → Oct d → (Fin d → ℕ) → ι → K} (hUV : SameCells s t C.blk U V) :
    Both (SameCells s t C.blk) (stageStep C k T s dt U) (stageStep C k T t dt V) := by
  obtain ⟨hs, ms⟩ := reach_good hG hd hde h64 hL hT hP h
  obtain ⟨ht, mt⟩ := reach_good hG hd hde h64 hL hT hQ h'
  have hm : s.mesh = t.mesh := ms.unique mt
  refine (C105_stage_of_the_mesh hG hd hde h64 hL hT hP hb h k T dt U).meet ?_
  rw [hm]
  have hV : Own t C.blk V fun o => U (owner s.octs o) o := fun q o ho x hx =>
    (hUV _ q o (owner_mem _ (show o ∈ s.mesh by rw [hm]; exact mem_mesh ho)) ho x hx).symm
  exact (blockStep_same hG ht hb k dt hV).bind fun W f hW =>
    termsStep_same hG ht hb T (layers_le k).1 (layers_le k).2 dt hV hW

end

end Verif.Sim
