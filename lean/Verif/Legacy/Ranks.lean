import Verif.Legacy.Local
import Verif.Sim.BlockProps

/-!
# C94: the older block-based solver on all ranks

`HydroUpdate_legacy` as it runs on ranks: the time loop exchanges ghosts, every rank fills the blocks of its octants and
updates their cells.
-/

namespace Verif.Legacy

open Verif.Octree Verif.Cells Verif.Run Verif.Legacy.Spec
open Verif.Sim (rankMap exchangeLayers ghostCount Own SameCells)
open Verif.Partition (Within)

noncomputable section

variable {d N Q : ℕ}

/-! ### Model -/

/-- `DyabloTimeLoop.h` L656-675 and L694 (exchange of the gas and of the acceleration) with `gc` layers, then `HydroUpdate_legacy.cpp` L50-184 on rank `r` for cell `x` of its
octant `o`. `B` is what the group array contains from octants before. -/
def cellOnRank [NeZero N] (RS : State d → State d → State d) (P : Par d) (UP : UPar d) (dt : ℝ) (gc : ℕ) (s : Ranks d N)
    (U : Fin N → Mesh d) (r : Fin N) (B : Block d) (o : Oct d) (x : Fin d → ℕ) : Option (State d) :=
  step RS P UP dt (rankMap s r) (exchangeLayers s P.b gc U r) B o x

/-- `DyabloTimeLoop.h` L311-321: `ghost_count` for `HydroUpdate_legacy`, whose name contains neither "oneneighbor" nor
"hancock". -/
def loopLayers (P : Par d) : ℕ := ghostCount P.b 2

/-! ### Proofs -/

section
variable [NeZero N] {P : Par d} {e L : ℕ} {s : Ranks d N}

theorem exchanged_agree (hG : P.G.WF) (hs : Good e L P.G s) {gc : ℕ} {U : Fin N → Mesh d} {g : Mesh d}
    (hU : Own s P.b U g) {r : Fin N} {o : Oct d} (ho : o ∈ s.octs r) :
    Sim.AgreeWithin P.G P.b gc s.mesh o (exchangeLayers s P.b gc U r) g := by
  refine ⟨fun x hx => ?_, fun a ha x hx hw => ?_⟩
  · rw [← hU r o ho x hx]
    unfold exchangeLayers
    rw [Sim.owner_eq hs ho]
    split <;> rfl
  · rw [Sim.exchangeLayers_within hG hs U ho (le_refl gc) ((Sim.around hG hs ho).complete a ha (Sim.Within.touch hw)) hx hw]
    exact hU _ a (owner_mem _ ha) x hx

/-- One cell, from `gc` layers. -/
theorem cell_same (hG : P.G.WF) (hs : Good e L P.G s) (hw : P.w = 2) (hb : ∀ k, 4 ≤ P.b k ∧ 2 ∣ P.b k)
    (hper : PeriodicOk P) (RS : State d → State d → State d) {UP : UPar d}
    (hc : UP.gravity.hasField = true → P.copyGravity = true) (dt : ℝ)
    {U : Fin N → Mesh d} {g : Mesh d} (hU : Own s P.b U g) {r : Fin N} {o : Oct d} (ho : o ∈ s.octs r)
    {x : Fin d → ℕ} (hx : ∀ k, x k < P.b k) {t gc : ℕ} (ht : t ≤ 2)
    (hn : 2 * t ≤ gc ∨ t ≤ gc ∧ ∀ a ∈ s.mesh, Touch P.G o a → a.level ≤ o.level)
    (hxt : t = 2 ∨ (d ≠ 2 ∨ UP.gravity.hasField = false) ∧ ∀ i, legacyReach UP ≤ x i + t ∧ x i + legacyReach UP < P.b i + t) (B B' : Block d) :
    cellOnRank RS P UP dt gc s U r B o x = step RS P UP dt s.mesh g B' o x := by
  obtain ⟨h1, h2⟩ := exchanged_agree hG hs hU ho
  obtain ⟨B1, B2, f1, f2, e1, e2⟩ := fill_agree (Sim.around hG hs ho) hw hb hper ht hn h1 h2 B B'
  unfold cellOnRank step
  rw [f1, f2, Option.bind_some, Option.bind_some]
  have hcop : ∀ v : HV d, Copied P v.var := fun v => by cases v <;> exact trivial
  refine updateCell_congr (by omega) hx ?_ hc (fun q hq hr v => e1 q (fun i => ?_) _ (hcop v))
    (fun v hv => e2 _ (fun i => ?_) v hv) dt
  · rcases hxt with rfl | ⟨hg, -⟩
    · exact Or.inr fun q hq v hv => e1 q (fun i => by have := hq i; omega) v hv
    · exact Or.inl hg
  · have := hq i
    have := hr i
    rcases hxt with rfl | hxt
    · omega
    · have := hxt.2 i; omega
  · have := hx i
    omega

end

/-! ### Properties -/

section
variable [NeZero N] {P : Par d} {e L : ℕ} (hG : P.G.WF) (hd : 0 < d) (hde : d ≤ e) (h64 : e * L < 64) (hL : P.G.lmin ≤ L)
  (hT : ∏ i, P.G.coarse i < 2 ^ 32) (hN : N ≤ ∏ i, P.G.coarse i) (hw : P.w = 2) (hb : ∀ k, 4 ≤ P.b k ∧ 2 ∣ P.b k)
  (hper : PeriodicOk P) (RS : State d → State d → State d) {UP : UPar d}
  (hc : UP.gravity.hasField = true → P.copyGravity = true) (dt : ℝ)
include hG hd hde h64 hL hT hN hw hb hper hc

/-- **C94**, with the four layers that `HydroUpdate_hancock` gets: every rank computes what the solver computes on the
whole mesh from the values `g` of all cells, whatever its ghosts and the group arrays contained. -/
theorem C94_four_layers {mks : List (Oct d → ℤ)} {s : Ranks d N} (h : Reach e L P.G mks s) {U : Fin N → Mesh d}
    {g : Mesh d} (hU : Own s P.b U g) {gc : ℕ} (hgc : 4 ≤ gc) {r : Fin N} {o : Oct d} (ho : o ∈ s.octs r)
    {x : Fin d → ℕ} (hx : ∀ k, x k < P.b k) (B B' : Block d) :
    cellOnRank RS P UP dt gc s U r B o x = step RS P UP dt s.mesh g B' o x :=
  cell_same hG (reach_good hG hd hde h64 hL hT hN h).1 hw hb hper RS hc dt hU ho hx (le_refl 2) (Or.inl hgc)
    (Or.inl rfl) B B'

/-- **C94**, with the two layers of the time loop: the same for octants that have no smaller octant around them, and in
all octants for the cells that are not in the outermost layer of the block (for all cells without slopes), except in 2D
with a gravity field. -/
theorem C94_two_layers_partial {mks : List (Oct d → ℤ)} {s : Ranks d N} (h : Reach e L P.G mks s) {U : Fin N → Mesh d}
    {g : Mesh d} (hU : Own s P.b U g) {r : Fin N} {o : Oct d} (ho : o ∈ s.octs r) {x : Fin d → ℕ}
    (hx : ∀ k, x k < P.b k)
    (hfar : (∀ a ∈ s.mesh, Touch P.G o a → a.level ≤ o.level) ∨ (d ≠ 2 ∨ UP.gravity.hasField = false) ∧
      ((∀ i, 1 ≤ x i ∧ x i + 1 < P.b i) ∨ (UP.slopeType ≠ 1 ∧ UP.slopeType ≠ 2))) (B B' : Block d) :
    cellOnRank RS P UP dt (loopLayers P) s U r B o x = step RS P UP dt s.mesh g B' o x := by
  have hl : loopLayers P = 2 := Sim.ghostCount_eq fun k => by have := (hb k).1; omega
  have hs := (reach_good hG hd hde h64 hL hT hN h).1
  rw [hl]
  rcases hfar with hfar | ⟨hg, hfar⟩
  · exact cell_same hG hs hw hb hper RS hc dt hU ho hx (le_refl 2) (Or.inr ⟨le_refl 2, hfar⟩) (Or.inl rfl) B B'
  · refine cell_same hG hs hw hb hper RS hc dt hU ho hx (t := 1) (by norm_num) (Or.inl (by norm_num)) (Or.inr ⟨hg, fun i => ?_⟩)
      B B'
    have := hx i
    unfold legacyReach
    rcases hfar with hfar | hfar
    · have := hfar i
      split_ifs <;> omega
    · rw [if_neg (by simpa using hfar)]
      omega

/-- **C94.** Two runs on different numbers of ranks, with the same values in all cells and different ghosts and group
arrays: under the same conditions a cell is updated in the same way. -/
theorem C94_independent_of_ranks_partial [NeZero Q] (hQ : Q ≤ ∏ i, P.G.coarse i) {mks : List (Oct d → ℤ)} {s : Ranks d N}
    {t : Ranks d Q} (h : Reach e L P.G mks s) (h' : Reach e L P.G mks t) {U : Fin N → Mesh d} {V : Fin Q → Mesh d}
    (hUV : SameCells s t P.b U V) {r : Fin N} {q : Fin Q} {o : Oct d} (ho : o ∈ s.octs r) (ho' : o ∈ t.octs q)
    {x : Fin d → ℕ} (hx : ∀ k, x k < P.b k)
    (hfar : (∀ a ∈ s.mesh, Touch P.G o a → a.level ≤ o.level) ∨ (d ≠ 2 ∨ UP.gravity.hasField = false) ∧
      ((∀ i, 1 ≤ x i ∧ x i + 1 < P.b i) ∨ (UP.slopeType ≠ 1 ∧ UP.slopeType ≠ 2))) (B B' : Block d) :
    cellOnRank RS P UP dt (loopLayers P) s U r B o x = cellOnRank RS P UP dt (loopLayers P) t V q B' o x := by
  obtain ⟨hs, ms⟩ := reach_good hG hd hde h64 hL hT hN h
  obtain ⟨ht, mt⟩ := reach_good hG hd hde h64 hL hT hQ h'
  have hm : s.mesh = t.mesh := ms.unique mt
  have hU : Own s P.b U fun o => U (owner s.octs o) o := fun r o ho x _ => by
    show U r o x = U (owner s.octs o) o x
    rw [Sim.owner_eq hs ho]
  have hV : Own t P.b V fun o => U (owner s.octs o) o := fun q o ho x hx =>
    (hUV _ q o (owner_mem _ (show o ∈ s.mesh by rw [hm]; exact Sim.mem_mesh ho)) ho x hx).symm
  rw [C94_two_layers_partial hG hd hde h64 hL hT hN hw hb hper RS hc dt h hU ho hx hfar B B,
    C94_two_layers_partial hG hd hde h64 hL hT hQ hw hb hper RS hc dt h' hV ho' hx (by rw [← hm]; exact hfar) B' B, hm]

end

end

end Verif.Legacy
