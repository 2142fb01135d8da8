import Verif.Sim.BlockSolvers
import Verif.Sim.Gravity

/-!
# C91: the block-based solvers on all ranks

`HydroUpdate_hancock`, `HydroUpdate_euler` and `HydroUpdate_RK2` as they run on ranks: the time loop exchanges
`ghost_count` layers of ghosts, every rank updates the cells of its own octants, and `HydroUpdate_RK2` exchanges ghosts
again between its stages.
-/

namespace Verif.Sim

open Verif.Octree Verif.Cells Verif.Adapt Verif.Flux Verif.Hydro Verif.Run
open Verif.Partition (Within)

variable {d P Q : ℕ} {K ι ν : Type} [Field K] [LinearOrder K]

/-! ### Model -/

/-- `DyabloTimeLoop.h` L311-321: `ghost_count`, the smallest of `bx`, `by` and `hydro_ghost_count`. -/
def ghostCount (blk : Fin d → ℕ) (hydro : ℕ) : ℕ :=
  (((List.finRange d).filter fun k : Fin d => decide (k.val < 2)).map blk).foldl min hydro

/-- What the solvers are configured with, for conserved variables `ι` and primitive variables `ν`. -/
structure Blocks (d : ℕ) (K ι : Type) where
  dom : Domain d
  grid : Grid d
  blk : Fin d → ℕ
  /-- `BoundaryConditions::getBoundaryValue`, from the values in the block at the boundary. -/
  bval : ((∀ k, Fin (blk k)) → ι → K) → CellIndex d → ι → K
  /-- `CopyGhostBlockCellData.h` L49-57: the mean of smaller cells. -/
  avg : List (ι → K) → ι → K
  /-- What is done to a cell after the fluxes (gravity, `clean_negative_primitive_values`): time step, cell, values before
  and after the fluxes. -/
  post : K → Oct d → (Fin d → ℕ) → (ι → K) → (ι → K) → ι → K

/-- What `copyGhostBlockCellData` fills patches from. -/
def Blocks.source (C : Blocks d K ι) (U : Oct d → (Fin d → ℕ) → ι → K) : Source d (ι → K) :=
  ⟨U, fun r => C.bval (fun y => U r.oct fun k => y k) r, C.avg⟩

/-- The update of one cell by the fluxes, for each variable: `HydroUpdate_hancock` (C75) or `euler_update` (C45). -/
inductive Kernel (d : ℕ) (K ι ν : Type)
  | hancock (E : ι → Hancock.Scheme d K ν (ι → K))
  | euler (E : ι → Euler.Scheme d K ν (ι → K))

def Kernel.run (k : Kernel d K ι ν) (C : Blocks d K ι) (M : Finset (Oct d)) (dt : K) (U : Oct d → (Fin d → ℕ) → ι → K)
    (o : Oct d) (x : Fin d → ℕ) (i : ι) : Option K :=
  match k with
  | .hancock E => Hancock.updateCell (E i) (C.source U) C.dom C.grid M C.blk dt (U o x i) o x
  | .euler E => Euler.updateCell (E i) (C.source U) C.dom C.grid M C.blk dt (U o x i) o x

/-- `DyabloTimeLoop.h` L314-319: `hydro_ghost_count`. -/
def Kernel.layers : Kernel d K ι ν → ℕ
  | .hancock _ => 4
  | .euler _ => 2

open Classical in
/-- One sweep over the patches of all ranks. The arrays `U` have ghosts; the result has the cells of the octants of a
rank. It is undefined if it is undefined in one cell. -/
noncomputable def sweepBlocks [NeZero P] (C : Blocks d K ι) (k : Kernel d K ι ν) (s : Ranks d P) (dt : K)
    (U : Fin P → Oct d → (Fin d → ℕ) → ι → K) : Option (Fin P → Oct d → (Fin d → ℕ) → ι → K) :=
  if ∀ r, ∀ o ∈ s.octs r, ∀ x ∈ cells C.blk, ∀ i, (k.run C (rankMap s r) dt (U r) o x i).isSome then
    some fun r o x => C.post dt o x (U r o x) fun i => (k.run C (rankMap s r) dt (U r) o x i).getD 0
  else none

/-- `communicate_ghosts` (`DyabloTimeLoop.h` L673-675), then `HydroUpdate_hancock` or `HydroUpdate_euler`. -/
noncomputable def blockStep [NeZero P] (C : Blocks d K ι) (k : Kernel d K ι ν) (s : Ranks d P) (dt : K)
    (U : Fin P → Oct d → (Fin d → ℕ) → ι → K) : Option (Fin P → Oct d → (Fin d → ℕ) → ι → K) :=
  sweepBlocks C k s dt (exchangeLayers s C.blk (ghostCount C.blk k.layers) U)

/-- `communicate_ghosts`, then `HydroUpdate_RK2.cpp` L136-168 and L248-265. The array of the first stage is new, `old` is
what its ghosts contain. -/
noncomputable def rk2Step [NeZero P] (C : Blocks d K ι) (E : ι → Euler.Scheme d K ν (ι → K)) (s : Ranks d P) (dt : K)
    (U old : Fin P → Oct d → (Fin d → ℕ) → ι → K) : Option (Fin P → Oct d → (Fin d → ℕ) → ι → K) :=
  (blockStep C (.euler E) s dt U).bind fun V =>
    (sweepBlocks C (.euler E) s dt (exchangeLayers s C.blk 2 (store s V old))).map fun W =>
      fun r o x i => 1 / 2 * (U r o x i + W r o x i)

/-! ### Specification -/

open Classical in
/-- The same on the whole mesh, without ranks and ghosts. -/
noncomputable def globalBlock (C : Blocks d K ι) (k : Kernel d K ι ν) (M : Finset (Oct d)) (dt : K)
    (U : Oct d → (Fin d → ℕ) → ι → K) : Option (Oct d → (Fin d → ℕ) → ι → K) :=
  if ∀ o ∈ M, ∀ x : Fin d → ℕ, (∀ k, x k < C.blk k) → ∀ i, (k.run C M dt U o x i).isSome then
    some fun o x => C.post dt o x (U o x) fun i => (k.run C M dt U o x i).getD 0
  else none

/-- The two stages on the whole mesh. -/
noncomputable def globalRK2 (C : Blocks d K ι) (E : ι → Euler.Scheme d K ν (ι → K)) (M : Finset (Oct d)) (dt : K)
    (U : Oct d → (Fin d → ℕ) → ι → K) : Option (Oct d → (Fin d → ℕ) → ι → K) :=
  (globalBlock C (.euler E) M dt U).bind fun V =>
    (globalBlock C (.euler E) M dt V).map fun W => fun o x i => 1 / 2 * (U o x i + W o x i)

/-! ### Proofs -/

theorem ghostCount_eq {blk : Fin d → ℕ} {n : ℕ} (h : ∀ k, n ≤ blk k) : ghostCount blk n = n := by
  unfold ghostCount
  generalize (List.finRange d).filter (fun k : Fin d => decide (k.val < 2)) = l
  induction l with
  | nil => rfl
  | cons k l ih => rw [List.map_cons, List.foldl_cons, min_eq_left (h k)]; exact ih

section
variable [NeZero P] {C : Blocks d K ι} {e L : ℕ} {s : Ranks d P}

omit [Field K] [LinearOrder K] in
theorem source_same {n : ℕ} {M : Finset (Oct d)} {o : Oct d} {U U' : Oct d → (Fin d → ℕ) → ι → K}
    (h : AgreeWithin C.grid C.blk n M o U U') : SameSource C.grid C.blk n M o (C.source U) (C.source U') := by
  refine ⟨h, fun r _ hr => ?_, rfl⟩
  show C.bval _ r = C.bval _ r
  congr 1
  funext y
  rw [hr]
  exact h.1 _ fun k => (y k).2

omit [Field K] [LinearOrder K] in
/-- After the exchange a rank has the values of the mesh in `n` layers around its octants. -/
theorem agree_exchanged (hG : C.grid.WF) (hs : Good e L C.grid s) {n gc : ℕ} (hn : n ≤ gc)
    {U : Fin P → Oct d → (Fin d → ℕ) → ι → K} {g : Oct d → (Fin d → ℕ) → ι → K} (hU : Own s C.blk U g) {r : Fin P}
    {o : Oct d} (ho : o ∈ s.octs r) : AgreeWithin C.grid C.blk n s.mesh o (exchangeLayers s C.blk gc U r) g := by
  refine ⟨fun x hx => ?_, fun o' ho' x hx hw => ?_⟩
  · rw [← hU r o ho x hx]
    unfold exchangeLayers
    rw [owner_eq hs ho]
    split <;> rfl
  · rw [exchangeLayers_within hG hs U ho hn ((around hG hs ho).complete o' ho' (Within.touch hw)) hx hw]
    exact hU _ o' (owner_mem _ ho') x hx

theorem run_same (hG : C.grid.WF) (hs : Good e L C.grid s) (hb : ∀ k, 4 ≤ C.blk k ∧ 2 ∣ C.blk k) (k : Kernel d K ι ν)
    {gc : ℕ} (hgc : k.layers ≤ gc) (dt : K) {U : Fin P → Oct d → (Fin d → ℕ) → ι → K}
    {g : Oct d → (Fin d → ℕ) → ι → K} (hU : Own s C.blk U g) {r : Fin P} {o : Oct d} (ho : o ∈ s.octs r)
    {x : Fin d → ℕ} (hx : ∀ k, x k < C.blk k) (i : ι) :
    k.run C (rankMap s r) dt (exchangeLayers s C.blk gc U r) o x i = k.run C s.mesh dt g o x i := by
  have hu : exchangeLayers s C.blk gc U r o x = g o x := (agree_exchanged hG hs hgc hU ho).1 x hx
  cases k with
  | hancock E =>
    unfold Kernel.run
    simp only
    rw [hu]
    exact hancock_same (around hG hs ho) hb (le_refl 4) (source_same (agree_exchanged hG hs hgc hU ho)) _ _ _ _
  | euler E =>
    unfold Kernel.run
    simp only
    rw [hu]
    exact euler_same (around hG hs ho) hb hx (le_refl 2) (source_same (agree_exchanged hG hs hgc hU ho)) _ _ _ _

theorem sweep_same (hG : C.grid.WF) (hs : Good e L C.grid s) (hb : ∀ k, 4 ≤ C.blk k ∧ 2 ∣ C.blk k) (k : Kernel d K ι ν)
    {gc : ℕ} (hgc : k.layers ≤ gc) (dt : K) {U : Fin P → Oct d → (Fin d → ℕ) → ι → K}
    {g : Oct d → (Fin d → ℕ) → ι → K} (hU : Own s C.blk U g) :
    Both (Own s C.blk) (sweepBlocks C k s dt (exchangeLayers s C.blk gc U)) (globalBlock C k s.mesh dt g) := by
  have hrun := fun (r : Fin P) (o : Oct d) (ho : o ∈ s.octs r) (x : Fin d → ℕ) (hx : ∀ k, x k < C.blk k) (i : ι) =>
    run_same hG hs hb k hgc dt hU ho hx i
  have hiff : (∀ r, ∀ o ∈ s.octs r, ∀ x ∈ cells C.blk, ∀ i,
      (k.run C (rankMap s r) dt (exchangeLayers s C.blk gc U r) o x i).isSome) ↔
      ∀ o ∈ s.mesh, ∀ x : Fin d → ℕ, (∀ k, x k < C.blk k) → ∀ i, (k.run C s.mesh dt g o x i).isSome := by
    constructor
    · intro h o ho x hx i
      rw [← hrun _ o (owner_mem _ ho) x hx i]
      exact h _ o (owner_mem _ ho) x (mem_cells.2 hx) i
    · intro h r o ho x hx i
      rw [hrun r o ho x (mem_cells.1 hx) i]
      exact h o (mem_mesh ho) x (mem_cells.1 hx) i
  unfold sweepBlocks globalBlock
  by_cases h : ∀ o ∈ s.mesh, ∀ x : Fin d → ℕ, (∀ k, x k < C.blk k) → ∀ i, (k.run C s.mesh dt g o x i).isSome
  · rw [if_pos h, if_pos (hiff.2 h)]
    refine Or.inl ⟨_, _, rfl, rfl, fun r o ho x hx => ?_⟩
    have hu : exchangeLayers s C.blk gc U r o x = g o x := (agree_exchanged hG hs hgc hU ho).1 x hx
    simp only [hu]
    congr 1
    funext i
    rw [hrun r o ho x hx i]
  · rw [if_neg h, if_neg (mt hiff.1 h)]
    exact Or.inr ⟨rfl, rfl⟩

theorem blockStep_same (hG : C.grid.WF) (hs : Good e L C.grid s) (hb : ∀ k, 4 ≤ C.blk k ∧ 2 ∣ C.blk k)
    (k : Kernel d K ι ν) (dt : K) {U : Fin P → Oct d → (Fin d → ℕ) → ι → K} {g : Oct d → (Fin d → ℕ) → ι → K}
    (hU : Own s C.blk U g) : Both (Own s C.blk) (blockStep C k s dt U) (globalBlock C k s.mesh dt g) := by
  refine sweep_same hG hs hb k ?_ dt hU
  rw [ghostCount_eq]
  intro j
  have := (hb j).1
  cases k <;> simp only [Kernel.layers] <;> omega

theorem rk2Step_same (hG : C.grid.WF) (hs : Good e L C.grid s) (hb : ∀ k, 4 ≤ C.blk k ∧ 2 ∣ C.blk k)
    (E : ι → Euler.Scheme d K ν (ι → K)) (dt : K) {U : Fin P → Oct d → (Fin d → ℕ) → ι → K}
    (old : Fin P → Oct d → (Fin d → ℕ) → ι → K) {g : Oct d → (Fin d → ℕ) → ι → K} (hU : Own s C.blk U g) :
    Both (Own s C.blk) (rk2Step C E s dt U old) (globalRK2 C E s.mesh dt g) := by
  unfold rk2Step globalRK2
  rcases blockStep_same hG hs hb (.euler E) dt hU with ⟨V, V', e1, e2, e3⟩ | ⟨e1, e2⟩
  · rw [e1, e2, Option.bind_some, Option.bind_some]
    have h3 : Own s C.blk (store s V old) V' := fun r o ho x hx => by
      unfold store
      rw [if_pos ho]
      exact e3 r o ho x hx
    rcases sweep_same hG hs hb (.euler E) (le_refl 2) dt h3 with ⟨W, W', k1, k2, k3⟩ | ⟨k1, k2⟩
    · refine Or.inl ⟨_, _, by rw [k1]; rfl, by rw [k2]; rfl, fun r o ho x hx => ?_⟩
      funext i
      show 1 / 2 * (U r o x i + W r o x i) = 1 / 2 * (g o x i + W' o x i)
      rw [hU r o ho x hx, k3 r o ho x hx]
    · exact Or.inr ⟨by rw [k1]; rfl, by rw [k2]; rfl⟩
  · rw [e1, e2]
    exact Or.inr ⟨rfl, rfl⟩

end

end Verif.Sim
