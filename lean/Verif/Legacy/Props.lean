import Mathlib.Tactic.FinCases
import Mathlib.Tactic.NormNum
import Verif.Legacy.Fill
import Verif.Octree.Check

/-!
# C83: ghost cells of the block-based update
-/

namespace Verif.Legacy

open Verif.Octree Verif.Cells Verif.Legacy.Spec

variable {d : ℕ}

/-- C83: the loops over the borders of a block handle exactly the ghost cells, and each of them in
one iteration only, for all block sizes and ghost widths. -/
theorem C83_every_ghost_cell_once (P : Par d) (p : Fin d → ℤ) :
    (IsGhost P.b P.w p → ∃! ki : Fin d × ℕ, ki.2 < nbCells P ∧
      (getPos P ki.1 ki.2).map (·.inLocal) = some p) ∧
    ((∃ ki : Fin d × ℕ, (getPos P ki.1 ki.2).map (·.inLocal) = some p) → IsGhost P.b P.w p) := by
  refine ⟨getPos_exists_unique, ?_⟩
  rintro ⟨ki, h⟩
  obtain ⟨q, hq, rfl⟩ := Option.map_eq_some_iff.1 h
  exact isGhost_of_getPos hq

/-- With walls on both sides of non-periodic directions images are in the domain. -/
theorem image_inDomain {P : Par d} {o : Oct d} {p : Fin d → ℤ}
    (ho : Valid P.G o) (hb : ∀ i, 0 < P.b i) (hw : ∀ i, P.w ≤ P.b i)
    (hp : ∀ i, -(P.w : ℤ) ≤ p i ∧ p i < P.b i + P.w)
    (hu : ∀ i, P.bcMin i ≠ .user ∧ P.bcMax i ≠ .user) (hper : PeriodicOk P) :
    InDomain (cellGrid P.G P.b) o.level (fun i => image (wall (P.bcMin i)) (wall (P.bcMax i))
      ((cellGrid P.G P.b).count i o.level) (lattice P.b o p i)) := by
  intro i
  obtain ⟨p1, p2⟩ := hper i
  obtain ⟨u1, u2⟩ := hu i
  obtain ⟨l1, l2, l3⟩ := lattice_ends ho hw hp i
  have hwi := hw i
  have hbi := hb i
  have hpi := hp i
  by_cases hpp : P.G.periodic i = true
  · exact Or.inl hpp
  · right
    have m1 : P.bcMin i ≠ .periodic := fun h => hpp (p1.1 h)
    have m2 : P.bcMax i ≠ .periodic := fun h => hpp (p2.1 h)
    beta_reduce
    unfold image
    generalize lattice P.b o p i = X at *
    generalize ((cellGrid P.G P.b).count i o.level : ℤ) = N at *
    by_cases h1 : X < 0
    · have := l1 h1
      rw [if_pos h1]
      rcases e1 : P.bcMin i with _ | _ | _ | _ <;> simp [e1] at u1 m1 <;> simp only [wall] <;> omega
    · rw [if_neg h1]
      by_cases h2 : N ≤ X
      · have := l2 h2
        rw [if_pos h2]
        rcases e1 : P.bcMax i with _ | _ | _ | _ <;> simp [e1] at u2 m2 <;> simp only [wall] <;> omega
      · rw [if_neg h2]
        omega

/-- C83, partial (blocks of even size, at least four cells wide next to smaller octants, no
user-defined boundaries, the third component of gravity excepted): on a 2:1 balanced mesh, with any
boundary conditions, `fill_ghosts` succeeds, leaves the octant's own values in the inner cells, and
every ghost cell receives the mean of the mesh over it, periodic directions wrapped; outside the
domain it is the mean over the mirror image (reflecting), with the sign of the normal components
changed, or over the last cell (absorbing), also in edges and corners where kinds are mixed. -/
theorem C83_ghost_values_partial {P : Par d} {M : Finset (Oct d)} {o : Oct d} (hG : P.G.Pos)
    (hM : Tiling P.G M) (hB : Balanced P.G M) (ho : o ∈ M)
    (hb : ∀ i, 0 < P.b i) (hev : ∀ i, 2 ∣ P.b i) (hw : ∀ i, P.w ≤ P.b i)
    (hsm : ∀ n ∈ M, Touch P.G o n → o.level < n.level → ∀ i, 2 * P.w ≤ P.b i)
    (hper : PeriodicOk P) (hu : ∀ i, P.bcMin i ≠ .user ∧ P.bcMax i ≠ .user)
    (U : Mesh d) (B : Block d) :
    ∃ B', fillGhosts P M U o B = some B' ∧
      (∀ p : Fin d → ℤ, (∀ i, -(P.w : ℤ) ≤ p i ∧ p i < P.b i + P.w) →
        ∃ W, Wraps (cellGrid P.G P.b) o.level
            (fun i => image (wall (P.bcMin i)) (wall (P.bcMax i))
              ((cellGrid P.G P.b).count i o.level) (lattice P.b o p i)) W ∧
          ∀ v, Copied P v → IsMean P.b M (fun o x => U o x v) o.level W
            (varSign (fun i => imageSign (wall (P.bcMin i)) (wall (P.bcMax i))
              ((cellGrid P.G P.b).count i o.level) (lattice P.b o p i)) v * B' p v)) ∧
      (∀ p : Fin d → ℤ, (∀ i, 0 ≤ p i ∧ p i < P.b i) → ∀ v,
        (∀ k, v = .grav k → P.copyGravity = true) → B' p v = U o (fun i => (p i).toNat) v) := by
  obtain ⟨B', h1, h2, h3, -, -⟩ := fillGhosts_spec hG hM hB ho hb hev hw hsm hper U B
  exact ⟨B', h1, fun p hp => h2 p hp (image_inDomain (hM.valid _ ho) hb hw hp hu hper), h3⟩

/-- A mesh with a refined octant, periodic in x, a wall and an open end in y. -/
def exPar : Par 2 :=
  ⟨exGrid, ![4, 4], 2, ![.periodic, .reflecting], ![.periodic, .absorbing], true⟩

/-- The hypotheses are met by a block of a coarse octant next to a refined one. -/
example : exPar.G.Pos ∧ Tiling exPar.G exMesh.toFinset ∧ Balanced exPar.G exMesh.toFinset ∧
    (⟨1, ![1, 0]⟩ : Oct 2) ∈ exMesh.toFinset ∧ (∀ i, 0 < exPar.b i) ∧ (∀ i, 2 ∣ exPar.b i) ∧
    (∀ i, 2 * exPar.w ≤ exPar.b i) ∧ PeriodicOk exPar ∧
    (∀ i, exPar.bcMin i ≠ .user ∧ exPar.bcMax i ≠ .user) :=
  ⟨exGrid_wf.1, exMesh_tiling, exMesh_balanced, by decide, by decide, by decide, by decide,
    by unfold PeriodicOk; decide, by decide⟩

/-- C83: the third component of gravity is not copied to ghost cells (nor is any component when the
mesh has no gravity field): what the array contained before stays there. -/
theorem C83_third_gravity_component_stale {P : Par d} {M : Finset (Oct d)} {o : Oct d}
    (hG : P.G.Pos) (hM : Tiling P.G M) (hB : Balanced P.G M) (ho : o ∈ M)
    (hb : ∀ i, 0 < P.b i) (hev : ∀ i, 2 ∣ P.b i) (hw : ∀ i, P.w ≤ P.b i)
    (hsm : ∀ n ∈ M, Touch P.G o n → o.level < n.level → ∀ i, 2 * P.w ≤ P.b i)
    (hper : PeriodicOk P) (U : Mesh d) (B : Block d) {p : Fin d → ℤ} (hp : IsGhost P.b P.w p)
    (k : Fin d) (hk : (k : ℕ) = 2) :
    ∃ B', fillGhosts P M U o B = some B' ∧ B' p (.grav k) = B p (.grav k) := by
  obtain ⟨B', h1, -, -, h2, -⟩ := fillGhosts_spec hG hM hB ho hb hev hw hsm hper U B
  refine ⟨B', h1, h2 p hp _ ?_⟩
  rintro ⟨-, h⟩
  omega

/-- The hypotheses can be met in three dimensions. -/
example : ∃ (P : Par 3) (p : Fin 3 → ℤ), IsGhost P.b P.w p ∧ (∀ i, 2 ∣ P.b i) ∧ PeriodicOk P :=
  ⟨⟨⟨1, fun _ => 2, fun _ => true⟩, fun _ => 4, 2, fun _ => .periodic, fun _ => .periodic, true⟩,
    fun _ => -1, by unfold IsGhost; decide, by decide, by unfold PeriodicOk; decide⟩

/-- C83: behind a user-defined boundary the ghost cells keep the placeholder of the first loop, zero
density and momentum with energy 1.11. -/
theorem C83_user_boundary_keeps_placeholder {P : Par d} {M : Finset (Oct d)} {o : Oct d}
    (hG : P.G.Pos) (hM : Tiling P.G M) (hB : Balanced P.G M) (ho : o ∈ M)
    (hb : ∀ i, 0 < P.b i) (hev : ∀ i, 2 ∣ P.b i) (hw : ∀ i, P.w ≤ P.b i)
    (hsm : ∀ n ∈ M, Touch P.G o n → o.level < n.level → ∀ i, 2 * P.w ≤ P.b i)
    (hper : PeriodicOk P) (U : Mesh d) (B : Block d) {p : Fin d → ℤ}
    (hp : ∀ i, -(P.w : ℤ) ≤ p i ∧ p i < P.b i + P.w) (k : Fin d)
    (hk : P.bcMin k = .user) (hk0 : lattice P.b o p k < 0) :
    ∃ B', fillGhosts P M U o B = some B' ∧ B' p .rho = 0 ∧ B' p .etot = 1.11 := by
  obtain ⟨B', h1, -, -, -, h2⟩ := fillGhosts_spec hG hM hB ho hb hev hw hsm hper U B
  have hn : ¬ InDomain (cellGrid P.G P.b) o.level (fun i => image (wall (P.bcMin i))
      (wall (P.bcMax i)) ((cellGrid P.G P.b).count i o.level) (lattice P.b o p i)) := by
    intro h
    rcases h k with h | h
    · have := (hper k).1.2 h
      rw [hk] at this
      exact absurd this (by decide)
    · beta_reduce at h
      unfold image at h
      rw [if_pos hk0, hk] at h
      simp only [wall] at h
      omega
  have e1 := h2 p hp hn .rho trivial
  have e2 := h2 p hp hn .etot trivial
  refine ⟨B', h1, ?_, ?_⟩
  · simpa [varSign, outside] using e1
  · simpa [varSign, outside] using e2

/-- The hypotheses can be met: a block at the lower end of y. -/
example : ∃ P : Par 2, P.G = exGrid ∧ PeriodicOk P ∧ P.bcMin 1 = .user ∧
    (∀ i, -(P.w : ℤ) ≤ (![1, -2] : Fin 2 → ℤ) i ∧ (![1, -2] : Fin 2 → ℤ) i < P.b i + P.w) ∧
    lattice P.b ⟨1, ![1, 0]⟩ ![1, -2] 1 < 0 :=
  ⟨⟨exGrid, ![4, 4], 2, ![.periodic, .user], ![.periodic, .absorbing], true⟩, rfl,
    by unfold PeriodicOk; decide, rfl, by decide, by decide⟩

/-! ### Block sizes for which the code fails -/

/-- One failing ghost cell makes the whole function fail. -/
theorem overBorders_none {P : Par d} {f : Fin d → ℕ → Block d → Option (Block d)} {k : Fin d} {i : ℕ}
    (hi : i < nbCells P) (h : ∀ B, f k i B = none) (B : Block d) : overBorders P f B = none := by
  unfold overBorders
  have hm : (k, i) ∈ (List.range (nbCells P)).flatMap fun index =>
      (List.finRange d).map fun k => (k, index) := by
    simp only [List.mem_flatMap, List.mem_range, List.mem_map, List.mem_finRange, true_and]
    exact ⟨i, hi, k, rfl⟩
  generalize (List.range (nbCells P)).flatMap (fun index =>
      (List.finRange d).map fun k => (k, index)) = l at hm
  induction l generalizing B with
  | nil => simp at hm
  | cons a l ih =>
    rw [List.foldlM_cons]
    rcases List.mem_cons.1 hm with rfl | hm
    · simp only [h]; rfl
    · rcases f a.1 a.2 B with _ | B1
      · rfl
      · exact ih B1 hm

theorem fillGhosts_none {P : Par d} {M : Finset (Oct d)} {U : Mesh d} {o : Oct d} {B : Block d}
    {p : Fin d → ℤ} (hp : IsGhost P.b P.w p)
    (h : getCellData P M U o ⟨p, neighborOf P p, inNeighborOf P p⟩ = none) :
    fillGhosts P M U o B = none := by
  obtain ⟨ki, ⟨h1, h2⟩, -⟩ := getPos_exists_unique hp
  obtain ⟨q, hq, e⟩ := Option.map_eq_some_iff.1 h2
  obtain ⟨e2, -⟩ := getPos_eq_some hq
  unfold fillGhosts
  rw [overBorders_none (k := ki.1) (i := ki.2) h1]
  · rfl
  · intro B
    unfold fillGhostFace
    rw [hq]
    simp only
    rw [e2, e, h]
    rfl

/-- The mesh of `exPar` with other block sizes. -/
def exPar' (n : ℕ) : Par 2 :=
  ⟨exGrid, fun _ => n, 2, ![.periodic, .reflecting], ![.periodic, .absorbing], true⟩

/-- C83: with blocks of two cells the second layer of ghost cells of an octant next to smaller ones
lies in octants that are not neighbours, and none of the neighbours contains it: the code goes on
with the index of no octant (it is only asserted in debug builds that one was found). -/
theorem C83_not_small_blocks :
    (∀ i, 2 ∣ (exPar' 2).b i) ∧ (∀ i, (exPar' 2).w ≤ (exPar' 2).b i) ∧
    ∀ (U : Mesh 2) (B : Block 2), fillGhosts (exPar' 2) exMesh.toFinset U ⟨1, ![1, 0]⟩ B = none := by
  refine ⟨by decide, by decide, fun U B => fillGhosts_none (p := ![-2, 0]) ?_ ?_⟩
  · unfold IsGhost; decide
  · have h1 : ¬ ∃ i, shiftPeriodic (exPar' 2) (cellPos (exPar' 2) ⟨1, ![1, 0]⟩ ![-2, 0]) i < 0 ∨
        1 < shiftPeriodic (exPar' 2) (cellPos (exPar' 2) ⟨1, ![1, 0]⟩ ![-2, 0]) i := by
      decide +kernel
    have h2 : findNeighbors exGrid exMesh.toFinset ⟨1, ![1, 0]⟩ (neighborOf (exPar' 2) ![-2, 0]) =
        some [⟨2, ![1, 0]⟩, ⟨2, ![1, 1]⟩] := by decide +kernel
    have h3 : findSub (exPar' 2) [⟨2, ![1, 0]⟩, ⟨2, ![1, 1]⟩]
        (shiftPeriodic (exPar' 2) (cellPos (exPar' 2) ⟨1, ![1, 0]⟩ ![-2, 0])) = none := by
      decide +kernel
    unfold getCellData
    simp only
    rw [if_neg h1, show (exPar' 2).G = exGrid from rfl, h2]
    simp only
    rw [if_neg (by decide), if_pos (by decide)]
    unfold fetchSmaller
    rw [h3]
    rfl

/-- C83: with blocks of odd size a ghost cell in a larger neighbour can get the value of the wrong
cell: here cell `(0,1)` instead of `(0,2)`, so not the mean of the mesh over the ghost cell. -/
theorem C83_not_odd_blocks :
    IsGhost (exPar' 3).b (exPar' 3).w ![3, 1] ∧
    (∀ U : Mesh 2, getCellData (exPar' 3) exMesh.toFinset U ⟨2, ![1, 1]⟩
      ⟨![3, 1], neighborOf (exPar' 3) ![3, 1], inNeighborOf (exPar' 3) ![3, 1]⟩ =
        some (U ⟨1, ![1, 0]⟩ ![0, 1])) ∧
    ∃ U : Mesh 2, ∀ W, Wraps (cellGrid (exPar' 3).G (exPar' 3).b) 2
        (lattice (exPar' 3).b ⟨2, ![1, 1]⟩ ![3, 1]) W →
      ¬ IsMean (exPar' 3).b exMesh.toFinset (fun o x => U o x .rho) 2 W (U ⟨1, ![1, 0]⟩ ![0, 1] .rho) := by
  refine ⟨by unfold IsGhost; decide, fun U => ?_, ?_⟩
  · have h1 : ¬ ∃ i, shiftPeriodic (exPar' 3) (cellPos (exPar' 3) ⟨2, ![1, 1]⟩ ![3, 1]) i < 0 ∨
        1 < shiftPeriodic (exPar' 3) (cellPos (exPar' 3) ⟨2, ![1, 1]⟩ ![3, 1]) i := by
      decide +kernel
    have h2 : findNeighbors exGrid exMesh.toFinset ⟨2, ![1, 1]⟩ (neighborOf (exPar' 3) ![3, 1]) =
        some [⟨1, ![1, 0]⟩] := by decide +kernel
    unfold getCellData
    simp only
    rw [if_neg h1, show (exPar' 3).G = exGrid from rfl, h2]
    simp only
    rw [if_neg (by decide), if_neg (by decide)]
    unfold fetchLarger fetchSame
    have h3 : inBlock (exPar' 3).b (fun i => inNeighborOf (exPar' 3) ![3, 1] i / 2 +
        if getCenter (exPar' 3).G ⟨1, ![1, 0]⟩ i <
          shiftPeriodic (exPar' 3) (cellPos (exPar' 3) ⟨2, ![1, 1]⟩ ![3, 1]) i
        then (((exPar' 3).b i / 2 : ℕ) : ℤ) else 0) = some ![0, 1] := by decide +kernel
    rw [h3]
    rfl
  · classical
    refine ⟨fun n x _ => if n = ⟨1, ![1, 0]⟩ ∧ x = ![0, 1] then 1 else 0, fun W hW => ?_⟩
    rintro ⟨c, hc, e⟩
    beta_reduce at e
    rw [if_pos ⟨rfl, rfl⟩] at e
    have hsum : ∑ s, (if (c s).1 = (⟨1, ![1, 0]⟩ : Oct 2) ∧ (c s).2 = ![0, 1] then (1 : ℝ) else 0) =
        ∑ _s : Fin 2 → Fin 2, (1 : ℝ) := by
      simp only [Finset.sum_const, Finset.card_univ, Fintype.card_pi, Fintype.card_fin,
        Finset.prod_const, nsmul_eq_mul]
      rw [eq_div_iff (by norm_num)] at e
      rw [← e]
      norm_num
    have hall := (Finset.sum_eq_sum_iff_of_le fun s _ => by
      split <;> norm_num).1 hsum (fun _ => 0) (Finset.mem_univ _)
    have h0 : (c fun _ => 0).1 = (⟨1, ![1, 0]⟩ : Oct 2) ∧ (c fun _ => 0).2 = ![0, 1] := by
      by_contra hn
      rw [if_neg hn] at hall
      norm_num at hall
    obtain ⟨-, -, ha⟩ := hc fun _ => 0
    rw [h0.1, h0.2] at ha
    have h1 := ha.2 1
    obtain ⟨hlt, t, ht, hw⟩ := hW 1
    have ht0 : t = 0 := by
      rcases ht with h | ⟨h, -⟩
      · exact h
      · exact absurd h (by decide)
    subst ht0
    have e4 : lattice (exPar' 3).b ⟨2, ![1, 1]⟩ ![3, 1] 1 = 4 := by decide
    rw [e4] at hw
    have : W 1 = 4 := by omega
    simp only [cellOct] at h1
    rw [this] at h1
    exact absurd h1 (by decide)

end Verif.Legacy
