import Verif.Sim.Terms
import Verif.Sim.BlockCheck

/-!
# C105: the terms are defined, cases, and a wrong number of layers
-/

namespace Verif.Sim

open Verif.Octree Verif.Cells Verif.Adapt Verif.Flux Verif.Hydro Verif.Run Verif.Parabolic
open Verif.Partition (Within)

section
variable {d P : ℕ} {K ι ν : Type} [Field K]

/-- Conduction finds all it reads, at boundaries as well. -/
theorem conduct_defined {V : Type} {G : Grid d} {M : Finset (Oct d)} {b : Fin d → ℕ} (hG : G.WF) (hM : Tiling G M)
    (hB : Balanced G M) (hb : ∀ k, 4 ≤ b k ∧ 2 ∣ b k) (H : Conduction d K V) (I : Source d V) (D : Domain d) {o : Oct d}
    (ho : o ∈ M) {x : Fin d → ℕ} (hx : ∀ k, x k < b k) : ∃ r, rhs H I D G M b o x = some r := by
  have all : ∀ j, ∀ s : ℤ, s = 1 ∨ s = -1 → ∃ F, iface H I D G M b o x j s = some F := by
    intro j s hs
    obtain ⟨u, hu⟩ : ∃ u, Euler.nextTo I G M b o x j s = some u := by
      unfold Euler.nextTo
      refine patchRead_defined (I := I) hG.toPos hM hB ho hb fun k => ?_
      have := faceOff_small j hs k
      have := hx k
      omega
    obtain ⟨r, e1, -, e3⟩ := reads hG hM hB (fun _ h => h) ⟨o, x, b, .localToBlock⟩ ho (fun _ h _ => h) hx rfl j hs
    unfold iface
    rw [patchRead_interior hx, e1, hu]
    simp only [Option.bind_some]
    by_cases hl : r.levelDiff ≥ 0
    · rw [if_pos hl]
      exact ⟨_, rfl⟩
    · rw [if_neg hl]
      rcases e3 with e3 | ⟨-, -, -, ⟨e3, -⟩ | ⟨-, f, hf⟩⟩
      · exfalso; apply hl; unfold CellIndex.levelDiff; rw [e3]; decide
      · exfalso; apply hl; omega
      · have hm : foreachSmallerNeighbor true G M r (faceOff j s) =
            ((loops fun k => if faceOff j s k = 0 then [(0 : ℤ), 1] else [0]).map f).map some := by
          unfold foreachSmallerNeighbor
          rw [List.map_map]
          refine List.map_congr_left fun δ hδ => ?_
          show getSiblingCell true G M r δ = _
          unfold getSiblingCell
          exact (hf δ hδ).1
        rw [hm, mapM_id_some]
        exact ⟨_, rfl⟩
  choose F hF using all
  unfold rhs
  rw [OneNeighbor.loops_mapM_some _ _ fun j =>
    ((∏ k ∈ Finset.univ.erase j, getCellSize D G ⟨o, x, b, .localToBlock⟩ k : ℚ) : K) *
      (F j 1 (Or.inl rfl) - F j (-1) (Or.inr rfl))]
  · exact ⟨_, rfl⟩
  · intro j _
    rw [hF j 1 (Or.inl rfl), hF j (-1) (Or.inr rfl)]
    rfl

variable [DecidableEq ι]

theorem globalTerms_defined {C : Blocks d K ι} (hG : C.grid.WF) {M : Finset (Oct d)} (hM : Tiling C.grid M)
    (hB : Balanced C.grid M) (hb : ∀ k, 4 ≤ C.blk k ∧ 2 ∣ C.blk k) (T : Terms d K ι) (dt : K)
    (U V : Oct d → (Fin d → ℕ) → ι → K) : ∃ W, globalTerms C T M dt U V = some W := by
  unfold globalTerms
  rw [if_pos]
  · exact ⟨_, rfl⟩
  · intro o ho x hx
    have hv : ∀ v, ∃ w, viscousCell C T M dt U o x v = some w := by
      intro v
      unfold viscousCell
      split
      · exact ⟨_, rfl⟩
      · next mu vel Lz _ =>
        obtain ⟨r, hr⟩ := Viscosity.C64_defined hG.toPos hM hB hb mu vel (C.source U) Lz C.dom ho hx
        rw [fillPatch_defined hG.toPos hM hB ho hb, hr]
        exact ⟨_, rfl⟩
    have hc : ∀ v, ∃ w, conductCell C T M dt U o x v = some w := by
      intro v
      unfold conductCell
      split
      · exact ⟨_, rfl⟩
      · next H _ =>
        obtain ⟨r, hr⟩ := conduct_defined hG hM hB hb H (C.source U) C.dom ho hx
        rw [fillPatch_defined hG.toPos hM hB ho hb, hr]
        exact ⟨_, rfl⟩
    obtain ⟨w, hw⟩ := hv (V o x)
    obtain ⟨y, hy⟩ := hc w
    unfold Terms.cell
    rw [hw, Option.bind_some, hy]
    rfl

/-- **C105.** What the three terms add to a cell: the viscous force to the momenta; viscous power, heat and cooling to the energy;
nothing to other variables. -/
theorem C105_adds {C : Blocks d K ι} (hG : C.grid.WF) {M : Finset (Oct d)} (hM : Tiling C.grid M) (hB : Balanced C.grid M)
    (hb : ∀ k, 4 ≤ C.blk k ∧ 2 ∣ C.blk k) {T : Terms d K ι} {mu : K} {vel : (ι → K) → Fin 3 → K} {Lz : ℚ}
    {H : Conduction d K (ι → K)} {mode : Cooling.Layer} {flux : ℚ} {j : Fin d} (h1 : T.viscosity = some (mu, vel, Lz))
    (h2 : T.conduction = some H) (h3 : T.cooling = some (mode, flux, j)) (hm : Function.Injective T.mom)
    (he : ∀ a, T.mom a ≠ T.energy) (dt : K) (U : Oct d → (Fin d → ℕ) → ι → K) {o : Oct d} (ho : o ∈ M) {x : Fin d → ℕ}
    (hx : ∀ k, x k < C.blk k) (v : ι → K) : ∃ w f r, T.cell C M dt U o x v = some w ∧
      Viscosity.rhsCell mu vel (C.source U) Lz C.dom C.grid M C.blk o x = some f ∧
      rhs H (C.source U) C.dom C.grid M C.blk o x = some r ∧ (∀ a, w (T.mom a) = v (T.mom a) + dt * f.mom a) ∧
      w T.energy = v T.energy + dt * (f.e + r + (Cooling.heating mode flux (C.dom.xmin j) (C.dom.xmax j)
        (getCellCenter C.dom C.grid ⟨o, x, C.blk, .localToBlock⟩ j) (getCellSize C.dom C.grid ⟨o, x, C.blk, .localToBlock⟩ j) : ℚ)) ∧
      ∀ i, i ≠ T.energy → (∀ a, i ≠ T.mom a) → w i = v i := by
  obtain ⟨f, hf⟩ := Viscosity.C64_defined hG.toPos hM hB hb mu vel (C.source U) Lz C.dom ho hx
  obtain ⟨r, hr⟩ := conduct_defined hG hM hB hb H (C.source U) C.dom ho hx
  refine ⟨coolCell C T dt o x (T.addEnergy dt r (T.addFlow dt f v)), f, r, ?_, hf, hr, ?_, ?_, ?_⟩
  · unfold Terms.cell viscousCell conductCell
    simp only [h1, h2]
    rw [fillPatch_defined hG.toPos hM hB ho hb, hf, Option.bind_some, Option.map_some, Option.bind_some, Option.bind_some, hr,
      Option.map_some, Option.map_some]
  · intro a
    unfold coolCell Terms.addEnergy Terms.addFlow
    simp only [h3, if_neg (he a)]
    have h10 : T.mom 1 ≠ T.mom 0 := fun h => absurd (hm h) (by decide)
    have h20 : T.mom 2 ≠ T.mom 0 := fun h => absurd (hm h) (by decide)
    have h21 : T.mom 2 ≠ T.mom 1 := fun h => absurd (hm h) (by decide)
    fin_cases a
    · simp [Viscosity.Flow.mom]
    · simp [Viscosity.Flow.mom, h10]
    · simp [Viscosity.Flow.mom, h20, h21]
  · unfold coolCell Terms.addEnergy Terms.addFlow
    simp only [h3, if_true]
    ring
  · intro i hi ha
    unfold coolCell Terms.addEnergy Terms.addFlow
    simp only [h3, if_neg hi, if_neg (ha _)]
    ring

variable [NeZero P] {C : Blocks d K ι} {e L : ℕ}

/-- **C105.** On ranks the terms are defined: every value they read is in the map of octants of the rank. -/
theorem C105_defined (hG : C.grid.WF) (hd : 0 < d) (hde : d ≤ e) (h64 : e * L < 64) (hL : C.grid.lmin ≤ L)
    (hT : ∏ i, C.grid.coarse i < 2 ^ 32) (hP : P ≤ ∏ i, C.grid.coarse i) (hb : ∀ k, 4 ≤ C.blk k ∧ 2 ∣ C.blk k)
    {mks : List (Oct d → ℤ)} {s : Ranks d P} (h : Reach e L C.grid mks s) (T : Terms d K ι) {hydro : ℕ} (h2 : 2 ≤ hydro)
    (h4 : hydro ≤ 4) (dt : K) (U V : Fin P → Oct d → (Fin d → ℕ) → ι → K) : (termsStep C T s hydro dt U V).isSome := by
  have hs := (reach_good hG hd hde h64 hL hT hP h).1
  obtain ⟨W, hW⟩ := globalTerms_defined hG hs.tiling hs.balanced hb T dt (fun o => U (owner s.octs o) o)
    fun o => V (owner s.octs o) o
  rcases C105_terms_of_the_mesh hG hd hde h64 hL hT hP hb h T h2 h4 dt U V with ⟨u, v, e1, -, -⟩ | ⟨-, e2⟩
  · rw [e1]; rfl
  · rw [hW] at e2; cases e2

end

/-! ### One layer is not enough for viscosity -/

/-- `c` is in the second layer of smaller cells right of an octant. -/
def secondLayer (c : ℚ) : Source 2 ℚ :=
  ⟨fun o x => if o = ⟨2, ![2, 0]⟩ ∧ x 0 = 1 then c else o.pos 0 * 10 + x 0 * x 0, fun _ => 0, fun l => l.sum / l.length⟩

/-- C105 is false with one layer of ghosts ("Could be 1 but other kernels may need 2", `DyabloTimeLoop.h` L314): two states that
agree in one layer around an octant, with different viscous forces in it. -/
theorem C105_one_layer_fails :
    Tiling quadGrid quad.toFinset ∧ Balanced quadGrid quad.toFinset ∧
    SameSource quadGrid ![4, 4] 1 quad.toFinset ⟨1, ![0, 0]⟩ (secondLayer 21) (secondLayer 22) ∧
    (Viscosity.rhsCell 1 (fun u : ℚ => ![u, 0, 0]) (secondLayer 21) 1 torusDomain quadGrid quad.toFinset ![4, 4] ⟨1, ![0, 0]⟩
      ![3, 0]).map Viscosity.Flow.u ≠
    (Viscosity.rhsCell 1 (fun u : ℚ => ![u, 0, 0]) (secondLayer 22) 1 torusDomain quadGrid quad.toFinset ![4, 4] ⟨1, ![0, 0]⟩
      ![3, 0]).map Viscosity.Flow.u := by
  refine ⟨quad_tiling, balanced_of_check ⟨⟨by decide⟩, by decide⟩ _ 2 (by decide +kernel),
    ⟨⟨fun x _ => ?_, fun o' _ x hx hw => ?_⟩, fun r _ _ => rfl, rfl⟩, by decide +kernel⟩
  · unfold secondLayer
    simp only
    rw [if_neg (fun h => absurd h.1 (by decide)), if_neg (fun h => absurd h.1 (by decide))]
  · have : ¬ (o' = ⟨2, ![2, 0]⟩ ∧ x 0 = 1) := by
      rintro ⟨rfl, h3⟩
      obtain ⟨t, ht, -, -, h1, -⟩ := hw 0
      have t0 : t = 0 := by
        rcases ht with h | ⟨h, -⟩
        · exact h
        · exact absurd h (by decide)
      subst t0
      norm_num [lo, hi, cellOct, cellGrid, Grid.count, quadGrid, h3] at h1
    unfold secondLayer
    simp only
    rw [if_neg this, if_neg this]

/-! ### What the terms add -/

/-- Which variable is changed by which term. -/
example : (⟨![1, 2, 3], 4, none, none, none⟩ : Terms 2 ℚ (Fin 5)).addFlow 2 ⟨1, 10, 100, 1000⟩ (fun i => i) =
      ![0, 1 + 2, 2 + 20, 3 + 200, 4 + 2000] ∧
    (⟨![1, 2, 3], 4, none, none, none⟩ : Terms 2 ℚ (Fin 5)).addEnergy 2 7 (fun i => i) = ![0, 1, 2, 3, 18] := by
  constructor <;> decide +kernel

/-- A periodic mesh of two levels with five variables. -/
def heatCase : Blocks 2 ℚ (Fin 5) :=
  ⟨torusDomain, torus, fun _ => 4, fun own r => own fun k => ⟨r.idx k % 4, Nat.mod_lt _ (by norm_num)⟩,
    fun l i => (l.map fun u => u i).sum / l.length, fun _ _ _ _ new => new⟩

def allTerms : Terms 2 ℚ (Fin 5) :=
  ⟨![1, 2, 3], 4, some (1, fun u => ![u 1, u 2, u 3], 1), some ⟨fun u => u 4, fun _ => 1, fun _ _ => none⟩,
    some (.oneCell, 3, 1)⟩

/-- Five variables: it meets the hypotheses of `C105_adds`. -/
example : Function.Injective allTerms.mom ∧ ∀ a, allTerms.mom a ≠ allTerms.energy := by
  constructor <;> decide

/-- All three terms in a cell at the lower end of the box. -/
example : (allTerms.cell heatCase quad.toFinset (1 / 2) (fun o x i => if i = 0 then 1 else o.pos 0 + x 0 * i) ⟨1, ![0, 0]⟩
    ![0, 0] fun _ => 0).map (fun v => (v 0 = 0 ∧ v 1 ≠ 0 ∧ v 4 ≠ 0 : Bool)) = some true := by
  decide +kernel

/-! ### Eight ranks and one -/

def blockTerms : Terms 3 ℚ Unit :=
  ⟨fun _ => (), (), some (1, fun u _ => u (), 1), some ⟨fun u => u (), fun p => p 0, fun _ _ => none⟩, some (.oneCell, 3, 2)⟩

/-- Eight ranks and one rank: the two stages with all three terms are defined on both, with the same values in all cells. -/
example : ∃ (s : Ranks 3 8) (t : Ranks 3 1), Reach 3 4 blockCase.grid [] s ∧ Reach 3 4 blockCase.grid [] t ∧
    ∀ k ∈ [upHancock, .euler upEuler], ∃ u v, stageStep blockCase k blockTerms s (1 / 100) (bump s) = some u ∧
      stageStep blockCase k blockTerms t (1 / 100) (bump t) = some v ∧ SameCells s t (fun _ => 4) u v := by
  obtain ⟨⟨s, es⟩, -⟩ := C81_progress_partial (P := 8) (e := 3) (L := 4) blockCase_wf (by decide) (by decide) (by decide)
    (by decide) (by decide) (by decide)
  obtain ⟨⟨t, et⟩, -⟩ := C81_progress_partial (P := 1) (e := 3) (L := 4) blockCase_wf (by decide) (by decide) (by decide)
    (by decide) (by decide) (by decide)
  have rs : Reach 3 4 blockCase.grid [] s := Reach.start es
  have rt : Reach 3 4 blockCase.grid [] t := Reach.start et
  have hb : ∀ k, 4 ≤ blockCase.blk k ∧ 2 ∣ blockCase.blk k := fun k => ⟨le_refl 4, ⟨2, rfl⟩⟩
  have hD : Domain.Ok blockCase.dom := fun _ => show (0 : ℚ) < 1 by norm_num
  have hsame : SameCells s t blockCase.blk (bump s) (bump t) := fun r q o ho ho' x _ => by
    funext i; unfold bump; rw [if_pos ho, if_pos ho']
  refine ⟨s, t, rs, rt, fun k hk => ?_⟩
  have hp : k.Plain := by
    simp only [List.mem_cons, List.not_mem_nil, or_false] at hk
    rcases hk with rfl | rfl
    · exact trivial
    · exact fun _ => rfl
  have hdef := (C91_defined (ν := Unit) (C := blockCase) (e := 3) (L := 4) blockCase_wf (by decide) (by decide) (by decide)
    (by decide) (by decide) (by decide) hD hb rs (1 / 100) (bump s) (bump s)).1 k hp
  obtain ⟨V, hV⟩ := Option.isSome_iff_exists.1 hdef
  have hterm := C105_defined (C := blockCase) (e := 3) (L := 4) blockCase_wf (by decide) (by decide) (by decide)
    (by decide) (by decide) (by decide) hb rs blockTerms (layers_le k).1 (layers_le k).2 (1 / 100) (bump s) V
  rcases C105_independent_of_ranks (C := blockCase) (P := 8) (Q := 1) blockCase_wf (by decide) (by decide) (by decide)
    (by decide) (by decide) (by decide) (by decide) hb rs rt k blockTerms (1 / 100) hsame with ⟨u, v, e1, e2, e3⟩ | ⟨e1, -⟩
  · exact ⟨u, v, e1, e2, e3⟩
  · unfold stageStep at e1
    rw [hV, Option.bind_some] at e1
    rw [e1] at hterm
    cases hterm

end Verif.Sim
