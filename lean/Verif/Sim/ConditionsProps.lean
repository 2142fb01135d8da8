import Verif.Sim.Props
import Verif.Init.Mesh

/-!
# C107: markers in a run, and what becomes of them
-/

namespace Verif.Sim

open Verif.Octree Verif.Cells Verif.Adapt Verif.Flux Verif.Hydro Verif.Hydro.OneNeighbor Verif.Refine Verif.Remap Verif.Run

variable {d P P' : ℕ} {K ι ν S : Type} [Field K] [LinearOrder K] [NeZero P] [NeZero P'] {C : Config d K ι ν S}

/-! ### Specification -/

/-- `c` is one of the `2^d` parts of `a`. -/
def PartOf (a c : Oct d) : Prop := c.level = a.level + 1 ∧ ∀ k, c.pos k / 2 = a.pos k

/-- Every leaf of `t` lies in a leaf of `s`. -/
def OnlyRefined (s : State d P K ι) (t : State d P' K ι) : Prop :=
  ∀ r o, o ∈ t.ranks.octs r → ∃ r' a, a ∈ s.ranks.octs r' ∧ Anc a o

/-- `v` is the state of the only cell on side `σ` of cell `x` of octant `o` in direction `j`; it is not smaller. -/
def Beside (C : Config d K ι ν S) (s : State d P K ι) (o : Oct d) (x : Fin d → ℕ) (j : Fin d) (σ : ℤ) (v : ι → K) : Prop :=
  ∃ r, ∃ o' ∈ s.ranks.octs r, ∃ y : Fin d → ℕ, (∀ k, y k < C.blk k) ∧ o'.level ≤ o.level ∧
    nbrs (cellGrid C.grid C.blk) (cellMesh C.blk s.ranks.mesh) (cellOct C.blk o x) j σ = {cellOct C.blk o' y} ∧
    v = s.data r o' y

/-! ### Markers of octants from what cells ask for -/

variable [IsStrictOrderedRing K] {s t : State d P K ι}

omit [IsStrictOrderedRing K] [Field K] [LinearOrder K] in
theorem adjust_iff (lmin lmax : ℤ) (l : ℕ) (m : ℤ) :
    (Refine.adjust lmin lmax l m = 1 ↔ l < lmax ∧ m = 1) ∧ (Refine.adjust lmin lmax l m = -1 ↔ lmin < l ∧ m = -1) := by
  change ((if (l : ℤ) ≤ lmin ∧ (if (l : ℤ) ≥ lmax ∧ m = 1 then 0 else m) = -1 then 0
      else if (l : ℤ) ≥ lmax ∧ m = 1 then 0 else m) = (1 : ℤ) ↔ _) ∧
    ((if (l : ℤ) ≤ lmin ∧ (if (l : ℤ) ≥ lmax ∧ m = 1 then 0 else m) = -1 then 0
      else if (l : ℤ) ≥ lmax ∧ m = 1 then 0 else m) = (-1 : ℤ) ↔ _)
  by_cases h1 : (l : ℤ) ≥ lmax ∧ m = 1
  · simp only [if_pos h1, ite_self]
    omega
  · simp only [if_neg h1]
    by_cases h2 : (l : ℤ) ≤ lmin ∧ m = -1
    · simp only [if_pos h2]
      omega
    · simp only [if_neg h2]
      omega

omit [IsStrictOrderedRing K] in
/-- The octant is refined if a cell asks for it, and coarsened if all do. -/
theorem mark_of (hC : C.Ok) (hs : Ok C s) {o : Oct d} (ho : o ∈ s.ranks.mesh) :
    ∃ ask : (Fin d → ℕ) → ℤ, (∀ x, (∀ k, x k < C.blk k) → cellMark C s.ranks.mesh s.field o x = some (ask x)) ∧
      (gMark C s.ranks.mesh s.field o = 1 ↔ o.level < C.lmax ∧ ∃ x, (∀ k, x k < C.blk k) ∧ ask x = 1) ∧
      (gMark C s.ranks.mesh s.field o = -1 ↔ C.condition.first = -1 ∧ C.grid.lmin < o.level ∧
        ∀ x, (∀ k, x k < C.blk k) → ask x = -1) := by
  have hdef : ∀ x : Fin d → ℕ, ∃ m, (∀ k, x k < C.blk k) → cellMark C s.ranks.mesh s.field o x = some m := by
    intro x
    by_cases hx : ∀ k, x k < C.blk k
    · obtain ⟨m, hm, -⟩ := cellMark_congr (C := C) (around_self hC.wf hs ho) hC.condition (U := s.field) (U' := s.field)
        (AgreeOn.near (fun _ _ _ _ => rfl) ho) (fun _ => ⟨fun _ _ => rfl, fun _ _ _ _ _ => rfl⟩) hx
      exact ⟨m, fun _ => hm⟩
    · exact ⟨0, fun h => absurd h hx⟩
  choose ask hask using hdef
  refine ⟨ask, hask, ?_⟩
  have h3 : ∀ x, (∀ k, x k < C.blk k) → ask x = -1 ∨ ask x = 0 ∨ ask x = 1 := fun x hx => cellMark_three (hask x hx)
  have e : gMark C s.ranks.mesh s.field o =
      adjust C.grid.lmin C.lmax o.level (((cells C.blk).map ask).foldl max C.condition.first) := by
    unfold gMark marker
    rw [loops_mapM_some _ _ ask fun x hx => hask x (mem_cells.1 hx)]
    rfl
  have h0 := first_eq C.condition
  obtain ⟨f1, f2, f3⟩ := foldl_max_spec ((cells C.blk).map ask) C.condition.first
  have up : ((cells C.blk).map ask).foldl max C.condition.first = 1 ↔ ∃ x, (∀ k, x k < C.blk k) ∧ ask x = 1 := by
    constructor
    · intro h
      rcases f1 with f1 | f1
      · omega
      · obtain ⟨x, hx, hxe⟩ := List.mem_map.1 f1
        exact ⟨x, mem_cells.1 hx, by rw [hxe, h]⟩
    · rintro ⟨x, hx, hxe⟩
      have h1 := f3 _ (List.mem_map.2 ⟨x, mem_cells.2 hx, rfl⟩)
      have := (foldl_max_range ((cells C.blk).map ask) (fun m hm => by
        obtain ⟨y, hy, rfl⟩ := List.mem_map.1 hm
        have := h3 y (mem_cells.1 hy)
        omega) h0).2
      omega
  have down : ((cells C.blk).map ask).foldl max C.condition.first = -1 ↔ C.condition.first = -1 ∧
      ∀ x, (∀ k, x k < C.blk k) → ask x = -1 := by
    constructor
    · intro h
      refine ⟨by omega, fun x hx => ?_⟩
      have h1 := f3 _ (List.mem_map.2 ⟨x, mem_cells.2 hx, rfl⟩)
      have := h3 x hx
      omega
    · rintro ⟨h1, h2⟩
      rcases f1 with f1 | f1
      · omega
      · obtain ⟨x, hx, hxe⟩ := List.mem_map.1 f1
        rw [← hxe]
        exact h2 x (mem_cells.1 hx)
  rw [e, ← up]
  have hd : C.condition.first = -1 ∧ C.grid.lmin < o.level ∧ (∀ x, (∀ k, x k < C.blk k) → ask x = -1) ↔
      C.grid.lmin < o.level ∧ ((cells C.blk).map ask).foldl max C.condition.first = -1 := by rw [down]; tauto
  rw [hd]
  have h4 := adjust_iff C.grid.lmin C.lmax o.level (((cells C.blk).map ask).foldl max C.condition.first)
  rw [h4.1, h4.2]
  norm_cast

theorem mass_eq (hC : C.Ok) (rho : K) (o : Oct d) (x : Fin d → ℕ) :
    cellMass rho (fun k => ((getCellSize C.dom C.grid (cellAt C.blk o x) k : ℚ) : K)) = rho * (vol C o : K) := by
  rw [cellMass_eq, vol_eq_volume C o x]
  congr 1
  unfold volume
  push_cast
  refine Finset.prod_congr rfl fun k _ => ?_
  rw [getCellSize_eq hC.wf.toPos C.dom (cellAt C.blk o x) hC.blk]
  rfl

theorem mass_marks (hC : C.Ok) (hs : Ok C s) {t t' : K} (hc : C.condition = .mass t t') {r : Fin P} {o : Oct d}
    (ho : o ∈ s.ranks.octs r) :
    ∃ m, marks C s o = some m ∧
      (m = 1 ↔ o.level < C.lmax ∧ ∃ x, (∀ k, x k < C.blk k) ∧ t < C.rho (s.data r o x) * (vol C o : K)) ∧
      (m = -1 ↔ C.grid.lmin < o.level ∧ ∀ x, (∀ k, x k < C.blk k) →
        C.rho (s.data r o x) * (vol C o : K) ≤ t ∧ C.rho (s.data r o x) * (vol C o : K) ≤ t') := by
  obtain ⟨ask, h1, h2, h3⟩ := mark_of hC hs (mem_mesh ho)
  have ha : ∀ x, (∀ k, x k < C.blk k) → ask x = criterion (some (C.rho (s.data r o x) * (vol C o : K))) t t' := by
    intro x hx
    have := h1 x hx
    unfold cellMark at this
    rw [hc] at this
    simp only [Option.some.injEq] at this
    rw [← this]
    unfold massMark State.field
    rw [mass_eq hC, owner_eq hs ho]
  refine ⟨_, rank_marks hC hs (mem_mesh ho), ?_, ?_⟩
  · rw [h2]
    refine and_congr_right fun _ => exists_congr fun x => and_congr_right fun hx => ?_
    rw [ha x hx, (C52_criterion _ _ _).1]
  · rw [h3]
    have hf : C.condition.first = -1 := by rw [hc]; rfl
    simp only [hf, true_and]
    refine and_congr_right fun _ => forall_congr' fun x => forall_congr' fun hx => ?_
    rw [ha x hx, (C52_criterion _ _ _).2.1]

/-- **C107 (mass).** In a run with `RefineCondition_mass`, the rank that has octant `o` marks it for refinement exactly if
it is below the finest level and the mass of one of its cells is above `mass_refine`; for coarsening exactly if it is above
the coarsest level and the masses of all its cells are at most `mass_coarsen` (and `mass_refine`). -/
theorem C107_mass (hC : C.Ok) (hP : P ≤ ∏ k, C.grid.coarse k) {time : K} {ops : List Op} (h : simulate C time ops = some s)
    {t t' : K} (hc : C.condition = .mass t t') {r : Fin P} {o : Oct d} (ho : o ∈ s.ranks.octs r) :
    ∃ m, marks C s o = some m ∧
      (m = 1 ↔ o.level < C.lmax ∧ ∃ x, (∀ k, x k < C.blk k) ∧ t < C.rho (s.data r o x) * (vol C o : K)) ∧
      (m = -1 ↔ C.grid.lmin < o.level ∧ ∀ x, (∀ k, x k < C.blk k) →
        C.rho (s.data r o x) * (vol C o : K) ≤ t ∧ C.rho (s.data r o x) * (vol C o : K) ≤ t') :=
  mass_marks hC (simulate_ok hC hP h) hc ho

theorem downflow_marks (hC : C.Ok) (hs : Ok C s) {sign t t' : K} {rhoV : (ι → K) → K}
    (hc : C.condition = .downflows sign rhoV t t') {r : Fin P} {o : Oct d} (ho : o ∈ s.ranks.octs r)
    (h0 : ∀ x, (∀ k, x k < C.blk k) → C.rho (s.data r o x) ≠ 0) :
    ∃ m, marks C s o = some m ∧
      (m = 1 ↔ o.level < C.lmax ∧ ∃ x, (∀ k, x k < C.blk k) ∧ t < sign * (rhoV (s.data r o x) / C.rho (s.data r o x))) ∧
      (m = -1 ↔ C.grid.lmin < o.level ∧ ∀ x, (∀ k, x k < C.blk k) →
        sign * (rhoV (s.data r o x) / C.rho (s.data r o x)) ≤ t ∧
          sign * (rhoV (s.data r o x) / C.rho (s.data r o x)) ≤ t') := by
  obtain ⟨ask, h1, h2, h3⟩ := mark_of hC hs (mem_mesh ho)
  have ha : ∀ x, (∀ k, x k < C.blk k) →
      ask x = criterion (some (sign * (rhoV (s.data r o x) / C.rho (s.data r o x)))) t t' := by
    intro x hx
    have := h1 x hx
    unfold cellMark at this
    rw [hc] at this
    simp only [Option.some.injEq] at this
    rw [← this]
    unfold downflowMark State.field
    rw [owner_eq hs ho, if_neg (h0 x hx), mul_div_assoc]
  refine ⟨_, rank_marks hC hs (mem_mesh ho), ?_, ?_⟩
  · rw [h2]
    refine and_congr_right fun _ => exists_congr fun x => and_congr_right fun hx => ?_
    rw [ha x hx, (C52_criterion _ _ _).1]
  · rw [h3]
    have hf : C.condition.first = -1 := by rw [hc]; rfl
    simp only [hf, true_and]
    refine and_congr_right fun _ => forall_congr' fun x => forall_congr' fun hx => ?_
    rw [ha x hx, (C52_criterion _ _ _).2.1]

/-- **C107 (downflows).** In a run with `RefineCondition_downflows`, octants are marked by the velocity in the last
direction times `downflow_sign`, if the densities are not 0. -/
theorem C107_downflows (hC : C.Ok) (hP : P ≤ ∏ k, C.grid.coarse k) {time : K} {ops : List Op}
    (h : simulate C time ops = some s) {sign t t' : K} {rhoV : (ι → K) → K} (hc : C.condition = .downflows sign rhoV t t')
    {r : Fin P} {o : Oct d} (ho : o ∈ s.ranks.octs r) (h0 : ∀ x, (∀ k, x k < C.blk k) → C.rho (s.data r o x) ≠ 0) :
    ∃ m, marks C s o = some m ∧
      (m = 1 ↔ o.level < C.lmax ∧ ∃ x, (∀ k, x k < C.blk k) ∧ t < sign * (rhoV (s.data r o x) / C.rho (s.data r o x))) ∧
      (m = -1 ↔ C.grid.lmin < o.level ∧ ∀ x, (∀ k, x k < C.blk k) →
        sign * (rhoV (s.data r o x) / C.rho (s.data r o x)) ≤ t ∧
          sign * (rhoV (s.data r o x) / C.rho (s.data r o x)) ≤ t') :=
  downflow_marks hC (simulate_ok hC hP h) hc ho h0

/-- **C107 (pseudo_gradient).** In a run with `RefineCondition_pseudo_gradient`, an octant is marked for refinement exactly
if it is below the finest level and one of its cells differs from a cell next to it by more than `errorMax`, and for
coarsening exactly if it is above the coarsest level and no cell differs from a cell next to it by more than `errorMax` or
`errorMin`. -/
theorem C107_pseudo_gradient (hC : C.Ok) (hP : P ≤ ∏ k, C.grid.coarse k) {time : K} {ops : List Op}
    (h : simulate C time ops = some s) (hc : C.condition = .pseudoGradient) (h0 : 0 ≤ C.errorMin) (h1 : 0 ≤ C.errorMax)
    {r : Fin P} {o : Oct d} (ho : o ∈ s.ranks.octs r) :
    ∃ m, marks C s o = some m ∧
      (m = 1 ↔ o.level < C.lmax ∧ ∃ x, (∀ k, x k < C.blk k) ∧ ∃ j, ∃ σ : ℤ, (σ = 1 ∨ σ = -1) ∧
        ∃ r', ∃ o' ∈ s.ranks.octs r', ∃ y : Fin d → ℕ, (∀ k, y k < C.blk k) ∧
          cellOct C.blk o' y ∈ nbrs (cellGrid C.grid C.blk) (cellMesh C.blk s.ranks.mesh) (cellOct C.blk o x) j σ ∧
          C.errorMax < relDiff (C.rho (s.data r o x)) (C.rho (s.data r' o' y))) ∧
      (m = -1 ↔ C.grid.lmin < o.level ∧ ∀ x, (∀ k, x k < C.blk k) → ∀ j, ∀ σ : ℤ, (σ = 1 ∨ σ = -1) →
        ∀ r', ∀ o' ∈ s.ranks.octs r', ∀ y : Fin d → ℕ, (∀ k, y k < C.blk k) →
          cellOct C.blk o' y ∈ nbrs (cellGrid C.grid C.blk) (cellMesh C.blk s.ranks.mesh) (cellOct C.blk o x) j σ →
          relDiff (C.rho (s.data r o x)) (C.rho (s.data r' o' y)) ≤ C.errorMax ∧
            relDiff (C.rho (s.data r o x)) (C.rho (s.data r' o' y)) ≤ C.errorMin) := by
  have hs := simulate_ok hC hP h
  obtain ⟨ask, a1, a2, a3⟩ := mark_of hC hs (mem_mesh ho)
  have key : ∀ x, (∀ k, x k < C.blk k) → ∃ v, ask x = criterion (some v) C.errorMax C.errorMin ∧ ∀ t : K, 0 ≤ t →
      (v ≤ t ↔ ∀ j, ∀ σ : ℤ, (σ = 1 ∨ σ = -1) → ∀ r', ∀ o' ∈ s.ranks.octs r', ∀ y : Fin d → ℕ, (∀ k, y k < C.blk k) →
        cellOct C.blk o' y ∈ nbrs (cellGrid C.grid C.blk) (cellMesh C.blk s.ranks.mesh) (cellOct C.blk o x) j σ →
        relDiff (C.rho (s.data r o x)) (C.rho (s.data r' o' y)) ≤ t) := by
    intro x hx
    obtain ⟨v, e1, -, -, e4⟩ := C59_pseudo_gradient hC.wf.toPos hs.tiling hs.balanced (fun o x => C.rho (s.field o x))
      (mem_mesh ho) hx
    have hask := a1 x hx
    unfold cellMark at hask
    rw [hc] at hask
    simp only [pseudoGradient] at hask
    rw [e1, Option.map_some, Option.some.injEq] at hask
    refine ⟨v, hask.symm, fun t ht => (e4 t ht).trans ?_⟩
    have hfo : s.field o x = s.data r o x := by unfold State.field; rw [owner_eq hs ho]
    refine forall_congr' fun j => forall_congr' fun σ => forall_congr' fun _ => ⟨?_, ?_⟩
    · intro hall r' o' ho' y hy hn
      have := hall _ hn
      rw [Gravity.onBox_cell (mem_mesh ho') hy, hfo] at this
      have e : s.field o' y = s.data r' o' y := by unfold State.field; rw [owner_eq hs ho']
      rwa [e] at this
    · intro hall n hn
      obtain ⟨o', ho', y, hy, rfl⟩ := mem_cellMesh.1 (mem_nbrs.1 hn).1
      rw [Gravity.onBox_cell ho' hy, hfo]
      exact hall _ o' (owner_mem _ ho') y hy hn
  refine ⟨_, rank_marks hC hs (mem_mesh ho), ?_, ?_⟩
  · rw [a2]
    refine and_congr_right fun _ => exists_congr fun x => and_congr_right fun hx => ?_
    obtain ⟨v, hv, hle⟩ := key x hx
    rw [hv, (C52_criterion _ _ _).1, ← not_le, hle _ h1]
    push Not
    rfl
  · rw [a3]
    have hf : C.condition.first = -1 := by rw [hc]; rfl
    simp only [hf, true_and]
    refine and_congr_right fun _ => forall_congr' fun x => forall_congr' fun hx => ?_
    obtain ⟨v, hv, hle⟩ := key x hx
    rw [hv, (C52_criterion _ _ _).2.1, hle _ h1, hle _ h0]
    exact ⟨fun h j σ hσ r' o' ho' y hy hn => ⟨h.1 j σ hσ r' o' ho' y hy hn, h.2 j σ hσ r' o' ho' y hy hn⟩,
      fun h => ⟨fun j σ hσ r' o' ho' y hy hn => (h j σ hσ r' o' ho' y hy hn).1,
        fun j σ hσ r' o' ho' y hy hn => (h j σ hσ r' o' ho' y hy hn).2⟩⟩

/-- What the patch of octant `o` has beside a cell. -/
theorem patchRead_beside (hC : C.Ok) (hs : Ok C s) {o : Oct d} (ho : o ∈ s.ranks.mesh) {x : Fin d → ℕ}
    (hx : ∀ k, x k < C.blk k) (hb : ∀ k, 2 ≤ C.blk k) {j : Fin d} {σ : ℤ} (hσ : σ = 1 ∨ σ = -1) {v : ι → K}
    (hv : Beside C s o x j σ v) {I : Source d (ι → K)} (hI : I.U = s.field) :
    patchRead I C.grid s.ranks.mesh C.blk o (fun k => (x k : ℤ) + faceOff j σ k) = some v := by
  obtain ⟨r, o', ho', y, hy, hl, hn, rfl⟩ := hv
  have hin : InDomain (cellGrid C.grid C.blk) o.level (target C.blk o x (faceOff j σ)) := by
    by_contra hout
    obtain ⟨-, -, -, h0⟩ := outside hC.wf.toPos hs.tiling hs.balanced ⟨o, x, C.blk, .localToBlock⟩ ho hx rfl j hσ hout
    exact Finset.singleton_ne_empty _ (hn.symm.trans h0)
  obtain ⟨q, g1, g2, g3, g4, hside⟩ := side hC.wf.toPos hs.tiling hs.balanced ⟨o, x, C.blk, .localToBlock⟩ ho hx rfl j hσ hin
  have key : q.status ≠ .boundary → q.levelDiff ≥ 0 →
      nbrs (cellGrid C.grid C.blk) (cellMesh C.blk s.ranks.mesh) (cellOct C.blk o x) j σ = {cellOct C.blk q.oct q.idx} →
      patchRead I C.grid s.ranks.mesh C.blk o (fun k => (x k : ℤ) + faceOff j σ k) = some (s.data r o' y) := by
    intro k1 k2 k3
    rw [patchRead_near hb hx hσ g1 k1 k2, hI]
    rw [hn, Finset.singleton_inj] at k3
    obtain ⟨e1, e2⟩ := cellOct_inj hy g3 k3
    rw [← e1, ← e2]
    unfold State.field
    rw [owner_eq hs ho']
  cases hside with
  | same hst hl' hn' _ =>
    refine key ?_ ?_ hn' <;> rcases hst with h | h <;> simp [h, CellIndex.levelDiff, Status.keepLocal]
  | bigger hst hl' hn' _ => exact key (by simp [hst]) (by simp [hst, CellIndex.levelDiff]) hn'
  | smaller hst hl' f hf hnd hn' =>
    exfalso
    have h1 : cellOct C.blk o' y ∈ nbrs (cellGrid C.grid C.blk) (cellMesh C.blk s.ranks.mesh) (cellOct C.blk o x) j σ := by
      rw [hn]; exact Finset.mem_singleton_self _
    obtain ⟨δ, hδ, he⟩ := List.mem_map.1 ((hn' _).1 h1)
    have h2 := (hf δ hδ).2.2.2.2.1
    have h3 := congrArg (fun q : Oct d => q.level) he
    simp only [cellOct] at h3
    change (f δ).oct.level = o.level + 1 at h2
    omega

omit [IsStrictOrderedRing K] [NeZero P] [NeZero P'] in
/-- **C107.** Whichever refinement condition is used, runs on different numbers of ranks mark the same octants in the same
way, and every octant gets a marker. -/
theorem C107_marks_independent_of_ranks [IsStrictOrderedRing K] [NeZero P] [NeZero P'] (hC : C.Ok)
    (hP : P ≤ ∏ k, C.grid.coarse k) (hP' : P' ≤ ∏ k, C.grid.coarse k) {time : K} {ops : List Op} {s : State d P K ι}
    {s' : State d P' K ι} (h : simulate C time ops = some s) (h' : simulate C time ops = some s') {r : Fin P} {o : Oct d}
    (ho : o ∈ s.ranks.octs r) : ∃ m, marks C s o = some m ∧ marks C s' o = some m := by
  have hs := simulate_ok hC hP h
  have hs' := simulate_ok hC hP' h'
  obtain ⟨h1, -, h3⟩ := (same_iff hs hs').1 (C85_same_result hC hP hP' time ops h h')
  have hm := mem_mesh ho
  refine ⟨_, rank_marks hC hs hm, ?_⟩
  rw [rank_marks hC hs' (h1 ▸ hm), gMark_congr hC hs h3 hm, h1]

/-! ### The condition with second derivatives never coarsens -/

theorem newMesh_only_refined {G : Grid d} {M : Finset (Oct d)} {mk f : Oct d → ℤ} (hf : LeastCorrection G M mk f)
    (h0 : ∀ a ∈ M, 0 ≤ mk a) {o : Oct d} (ho : o ∈ newMesh f M) : ∃ a ∈ M, Anc a o := by
  obtain ⟨a, ha, h | h | h⟩ := (mem_newMesh hf.2.1 o).1 ho
  · exact ⟨a, ha, by omega, fun k => by rw [show o.level - a.level = 1 by omega, pow_one]; exact h.2.2 k⟩
  · exact ⟨a, ha, by rw [h.2], fun k => by rw [h.2, Nat.sub_self, pow_zero, Nat.div_one]⟩
  · have := hf.1 a ha
    have := h0 a ha
    omega

theorem step_only_refined (hC : C.Ok) (hc : C.condition.first = 0) (hs : Ok C s) {op : Op} (e : step C s op = some t) :
    Ok C t ∧ ∀ o ∈ t.ranks.mesh, ∃ a ∈ s.ranks.mesh, Anc a o := by
  have ht := (step_same hC hs hs (Same.refl hs) e e).1
  refine ⟨ht, ?_⟩
  have refl : t.ranks.mesh = s.ranks.mesh → ∀ o ∈ t.ranks.mesh, ∃ a ∈ s.ranks.mesh, Anc a o := fun he o ho =>
    ⟨o, he ▸ ho, le_rfl, fun k => by rw [Nat.sub_self, pow_zero, Nat.div_one]⟩
  cases op with
  | initRefine =>
    unfold step initRefine at e
    obtain ⟨R, h1, rfl⟩ := Option.map_eq_some_iff.1 e
    obtain ⟨hr, hx⟩ := init_requested hC hs
    obtain ⟨f, hf, -⟩ := adapt_spec hC.wf hC.bits hC.keys hs hr hx
    obtain ⟨-, -, a3⟩ := adapt_some hC hs hr hx h1 hf
    intro o ho
    change o ∈ R.mesh at ho
    rw [a3] at ho
    exact newMesh_only_refined hf (fun a _ => by split <;> omega) ho
  | hydro =>
    obtain ⟨dt, -, h2, -⟩ := hydro_spec hC.wf hC.cfl hs e
    exact refl (by rw [h2])
  | amr =>
    obtain ⟨hreq, hmax⟩ := marks_req hC hs
    obtain ⟨f, hf, -⟩ := adapt_spec hC.wf hC.bits hC.keys hs hreq hmax
    have hf1 := LeastCorrection.congr hf (mk' := gMark C s.ranks.mesh s.field) fun o ho => by
      rw [rank_marks hC hs ho]; rfl
    obtain ⟨-, -, h3, -⟩ := amr_spec hC hs e hf1
    intro o ho
    rw [h3] at ho
    refine newMesh_only_refined hf1 (fun a ha => ?_) ho
    obtain ⟨ask, -, -, h4⟩ := mark_of hC hs ha
    have h5 := (gMark_range C s.ranks.mesh s.field a).1
    by_contra hneg
    have := (h4.1 (by omega)).1
    omega
  | loadBalance level =>
    unfold step loadBalance at e
    obtain ⟨R, h1, rfl⟩ := Option.map_eq_some_iff.1 e
    obtain ⟨R2, h2, -, h4⟩ := balance_spec hC.wf hC.bits hC.keys hs level
    rw [h1] at h2
    cases h2
    exact refl h4

/-- **C107 (disagreement).** With `RefineCondition_second_derivative_error`, which is used if none is chosen, the mesh is
never coarsened: at any later time of a run every leaf lies in a leaf of the mesh of now, whatever the fields are and
whatever `error_min` is. -/
theorem C107_second_derivative_never_coarsens (hC : C.Ok) (hP : P ≤ ∏ k, C.grid.coarse k) {eps : K}
    {prim : List ((ι → K) → K)} {bval : ((∀ k, Fin (C.blk k)) → ι → K) → CellIndex d → ι → K}
    {avg : List (ι → K) → ι → K} (hc : C.condition = .secondDerivative eps prim bval avg) {time : K} {ops more : List Op}
    (h : simulate C time ops = some s) (h' : simulate C time (ops ++ more) = some t) : OnlyRefined s t := by
  have hf : C.condition.first = 0 := by rw [hc]; rfl
  have hs := simulate_ok hC hP h
  have key : ∀ (more : List Op) {s : State d P K ι}, Ok C s → more.foldlM (step C) s = some t →
      ∀ o ∈ t.ranks.mesh, ∃ a ∈ s.ranks.mesh, Anc a o := by
    intro more
    induction more with
    | nil =>
      intro s _ e o ho
      cases e
      exact ⟨o, ho, le_rfl, fun k => by rw [Nat.sub_self, pow_zero, Nat.div_one]⟩
    | cons op more ih =>
      intro s hs e o ho
      rw [List.foldlM_cons] at e
      cases h1 : step C s op with
      | none => rw [h1] at e; cases e
      | some u =>
        rw [h1] at e
        obtain ⟨hu, h2⟩ := step_only_refined hC hf hs h1
        obtain ⟨b, hb, hbo⟩ := ih hu e o ho
        obtain ⟨a, ha, hab⟩ := h2 b hb
        exact ⟨a, ha, hab.trans hbo⟩
  unfold simulate at h h'
  obtain ⟨s0, e0, h⟩ := Option.bind_eq_some_iff.1 h
  rw [e0, Option.bind_some, List.foldlM_append, h] at h'
  intro r o ho
  obtain ⟨a, ha, hao⟩ := key more hs h' o (mem_mesh ho)
  obtain ⟨r', hr'⟩ := (mem_leaves _ _).1 ha
  exact ⟨r', a, hr', hao⟩

/-! ### An AMR step after an AMR step -/

theorem PartOf.anc {a c : Oct d} (h : PartOf a c) : Anc a c :=
  ⟨by rw [h.1]; omega, fun k => by rw [show c.level - a.level = 1 by rw [h.1]; omega, pow_one]; exact h.2 k⟩

/-- What the AMR step does to an octant, for the markers `f` it ends up with. -/
theorem amr_least (hC : C.Ok) (hs : Ok C s) (e : amr C s = some t) : ∃ f,
    LeastCorrection C.grid s.ranks.mesh (gMark C s.ranks.mesh s.field) f ∧ (∀ a ∈ s.ranks.mesh, -1 ≤ f a ∧ f a ≤ 1) ∧
    Ok C t ∧ t.ranks.mesh = newMesh f s.ranks.mesh ∧
      ∀ o ∈ t.ranks.mesh, ∀ x : Fin d → ℕ, (∀ k, x k < C.blk k) → ∀ i,
        Remapped (boxes C.blk s.field i) (cellMesh C.blk s.ranks.mesh) (cellOct C.blk o x) (t.field o x i) := by
  obtain ⟨hreq, hmax⟩ := marks_req hC hs
  obtain ⟨f, hf, hf1, -⟩ := adapt_spec hC.wf hC.bits hC.keys hs hreq hmax
  have hf2 := LeastCorrection.congr hf (mk' := gMark C s.ranks.mesh s.field) fun o ho => by
    rw [rank_marks hC hs ho]; rfl
  obtain ⟨h1, -, h3, -, -, h6⟩ := amr_spec hC hs e hf2
  exact ⟨f, hf2, hf1, h1, h3, fun o ho x hx i => h6 _ o (owner_mem _ ho) x hx i⟩

/-- An octant that is new and has a part that was there before is merged from its parts, which were all marked. -/
theorem amr_merged [Nonempty ι] (hC : C.Ok) (hs : Ok C s) (e : amr C s = some t) {o a : Oct d} (ho : o ∈ t.ranks.mesh)
    (ha : a ∈ s.ranks.mesh) (hp : PartOf o a) : gMark C s.ranks.mesh s.field a = -1 ∧
    ∀ x : Fin d → ℕ, (∀ k, x k < C.blk k) → ∃ (c : (Fin d → Fin 2) → Oct d) (y : (Fin d → Fin 2) → Fin d → ℕ),
      (∀ q, c q ∈ s.ranks.mesh ∧ PartOf o (c q) ∧ ∀ k, y q k < C.blk k) ∧
      ∀ i, t.field o x i * 2 ^ d = ∑ q, s.field (c q) (y q) i := by
  obtain ⟨f, hf, hf1, ht, hm, hv⟩ := amr_least hC hs e
  have key : ∀ c ∈ s.ranks.mesh, PartOf o c → f c = -1 := by
    intro c hc hpc
    by_contra hne
    have hr := hf1 c hc
    rcases (show f c = 0 ∨ f c = 1 by omega) with h | h
    · have h1 : c ∈ t.ranks.mesh := by rw [hm]; exact (mem_newMesh hf.2.1 c).2 ⟨c, hc, Or.inr (Or.inl ⟨h, rfl⟩)⟩
      have h2 := ht.tiling.eq_of_anc hC.wf.toPos ho h1 hpc.anc
      have := hpc.1
      rw [h2] at this
      omega
    · let c' : Oct d := ⟨c.level + 1, fun k => 2 * c.pos k⟩
      have h1 : c' ∈ t.ranks.mesh := by
        rw [hm]
        exact (mem_newMesh hf.2.1 c').2 ⟨c, hc, Or.inl ⟨h, rfl, fun k => Nat.mul_div_cancel_left _ two_pos⟩⟩
      have hp' : PartOf c c' := ⟨rfl, fun k => Nat.mul_div_cancel_left _ two_pos⟩
      have h2 := ht.tiling.eq_of_anc hC.wf.toPos ho h1 (hpc.anc.trans hp'.anc)
      have h3 := hpc.1
      have h4 : c'.level = c.level + 1 := rfl
      rw [h2] at h3
      omega
  refine ⟨?_, fun x hx => ?_⟩
  · have h1 := hf.1 a ha
    have h2 := (gMark_range C s.ranks.mesh s.field a).1
    have h3 := key a ha hp
    omega
  have hA := cellMesh_tiling hC.wf.toPos hC.blk hs.tiling
  have hno : o ∉ s.ranks.mesh := fun h => by
    have h2 := hs.tiling.eq_of_anc hC.wf.toPos h ha hp.anc
    have := hp.1
    rw [h2] at this
    omega
  have hb := hC.blk
  have hq : ∀ {c : Oct d} {y : Fin d → ℕ}, (∀ k, y k < C.blk k) → ∀ {q : Oct d}, cellOct C.blk c y = q →
      c.level = q.level ∧ ∀ k, q.pos k / C.blk k = c.pos k := by
    rintro c y hy q rfl
    exact ⟨rfl, fun k => by
      simp only [cellOct]
      rw [Nat.mul_comm, Nat.mul_add_div (hb k), Nat.div_eq_of_lt (hy k), Nat.add_zero]⟩
  have hall : (∀ q : Fin d → Fin 2, (⟨(cellOct C.blk o x).level + 1, fun k => 2 * (cellOct C.blk o x).pos k + q k⟩ : Oct d) ∈
      cellMesh C.blk s.ranks.mesh) ∧ ∀ i, t.field o x i * 2 ^ d = ∑ q : Fin d → Fin 2,
        boxes C.blk s.field i ⟨(cellOct C.blk o x).level + 1, fun k => 2 * (cellOct C.blk o x).pos k + q k⟩ := by
    have h1 : cellOct C.blk o x ∉ cellMesh C.blk s.ranks.mesh := by
      intro h
      obtain ⟨c, hc, y, hy, hcy⟩ := mem_cellMesh.1 h
      obtain ⟨h2, h3⟩ := hq hy hcy
      obtain ⟨h4, h5⟩ := hq hx (rfl : cellOct C.blk o x = _)
      exact hno (Oct.ext' (show o.level = c.level by rw [h2, h4]) (fun k => by rw [← h3 k, ← h5 k]) ▸ hc)
    have h2 : ∀ p ∈ cellMesh C.blk s.ranks.mesh, p.level + 1 = (cellOct C.blk o x).level → ¬ Anc p (cellOct C.blk o x) := by
      intro p hp' hl hanc
      obtain ⟨c, hc, y, hy, hcy⟩ := mem_cellMesh.1 hp'
      obtain ⟨h2, h3⟩ := hq hy hcy
      obtain ⟨h4, h5⟩ := hq hx (rfl : cellOct C.blk o x = _)
      have h6 : PartOf c o := ⟨by rw [h4, ← hl, h2], fun k => by
        have h7 := hanc.2 k
        rw [show (cellOct C.blk o x).level - p.level = 1 by omega, pow_one] at h7
        rw [← h3, ← h7, ← h5, Nat.div_div_eq_div_mul, Nat.div_div_eq_div_mul, Nat.mul_comm]⟩
      have h8 := hs.tiling.eq_of_anc hC.wf.toPos hc ha (h6.anc.trans hp.anc)
      have h9 := h6.1
      have h10 := hp.1
      rw [h8] at h9
      omega
    have h3 : ∀ i, _ := fun i => hv o ho x hx i
    refine ⟨?_, fun i => ?_⟩
    · rcases h3 (Classical.arbitrary ι) with h | ⟨p, h4, h5, h6, -⟩ | h
      · exact absurd h.1 h1
      · exact absurd h6 (h2 p h4 h5)
      · exact h.1
    · rcases h3 i with h | ⟨p, h4, h5, h6, -⟩ | h
      · exact absurd h.1 h1
      · exact absurd h6 (h2 p h4 h5)
      · exact h.2
  have hc : ∀ q : Fin d → Fin 2, ∃ (c : Oct d) (y : Fin d → ℕ), c ∈ s.ranks.mesh ∧ PartOf o c ∧ (∀ k, y k < C.blk k) ∧
      ∀ i, boxes C.blk s.field i ⟨(cellOct C.blk o x).level + 1, fun k => 2 * (cellOct C.blk o x).pos k + q k⟩ =
        s.field c y i := by
    intro q
    obtain ⟨c, hc, y, hy, hcy⟩ := mem_cellMesh.1 (hall.1 q)
    obtain ⟨h2, h3⟩ := hq hy hcy
    obtain ⟨h4, h5⟩ := hq hx (rfl : cellOct C.blk o x = _)
    refine ⟨c, y, hc, ⟨by rw [h2]; rfl, fun k => ?_⟩, hy, fun i => by rw [← hcy, boxes_cell _ _ _ hy]⟩
    have hqk := (q k).2
    have h6 : (2 * (cellOct C.blk o x).pos k + q k) / 2 = (cellOct C.blk o x).pos k := by omega
    rw [← h3 k]
    simp only
    rw [Nat.div_div_eq_div_mul, Nat.mul_comm (C.blk k) 2, ← Nat.div_div_eq_div_mul, h6, h5]
  choose c y h1 h2 h3 h4 using hc
  exact ⟨c, y, fun q => ⟨h1 q, h2 q, h3 q⟩, fun i => by rw [hall.2 i]; exact Finset.sum_congr rfl fun q _ => h4 q i⟩

/-- An octant that is marked for refinement is cut, and the parts get copies of its values. -/
theorem amr_cut (hC : C.Ok) (hs : Ok C s) (e : amr C s = some t) {a : Oct d} (ha : a ∈ s.ranks.mesh)
    (h1 : gMark C s.ranks.mesh s.field a = 1) {x : Fin d → ℕ} (hx : ∀ k, x k < C.blk k) :
    ∃ c y, c ∈ t.ranks.mesh ∧ PartOf a c ∧ (∀ k, y k < C.blk k) ∧ ∀ i, t.field c y i = s.field a x i := by
  obtain ⟨f, hf, hf1, ht, hm, hv⟩ := amr_least hC hs e
  have hb := hC.blk
  have hfa : f a = 1 := by have := hf.1 a ha; have := hf1 a ha; omega
  let c : Oct d := ⟨a.level + 1, fun k => 2 * (a.pos k) + 2 * x k / C.blk k⟩
  let y : Fin d → ℕ := fun k => 2 * x k % C.blk k
  have hlt : ∀ k, 2 * x k / C.blk k < 2 := fun k => (Nat.div_lt_iff_lt_mul (hb k)).2 (by have := hx k; omega)
  have hp : PartOf a c := ⟨rfl, fun k => by
    have := hlt k
    change (2 * a.pos k + 2 * x k / C.blk k) / 2 = a.pos k
    generalize 2 * x k / C.blk k = z at *
    omega⟩
  have hc : c ∈ t.ranks.mesh := by rw [hm]; exact (mem_newMesh hf.2.1 c).2 ⟨a, ha, Or.inl ⟨hfa, hp⟩⟩
  have hy : ∀ k, y k < C.blk k := fun k => Nat.mod_lt _ (hb k)
  refine ⟨c, y, hc, hp, hy, fun i => ?_⟩
  have hbox : cellOct C.blk a x ∈ cellMesh C.blk s.ranks.mesh := mem_cellMesh.2 ⟨a, ha, x, hx, rfl⟩
  have hanc : Anc (cellOct C.blk a x) (cellOct C.blk c y) := by
    refine ⟨by simp [cellOct, c], fun k => ?_⟩
    have h2 : (cellOct C.blk c y).level - (cellOct C.blk a x).level = 1 := by simp [cellOct, c]
    rw [h2, pow_one]
    simp only [cellOct, c, y]
    have h3 : (2 * a.pos k + 2 * x k / C.blk k) * C.blk k + 2 * x k % C.blk k = 2 * (a.pos k * C.blk k + x k) := by
      have := Nat.div_add_mod (2 * x k) (C.blk k)
      rw [Nat.add_mul, Nat.mul_comm (2 * x k / C.blk k)]
      linarith
    rw [h3, Nat.mul_div_cancel_left _ two_pos]
  have h2 : Remapped (boxes C.blk s.field i) (cellMesh C.blk s.ranks.mesh) (cellOct C.blk c y) (s.field a x i) :=
    Or.inr (Or.inl ⟨_, hbox, rfl, hanc, (boxes_cell _ _ _ hx).symm⟩)
  exact Remapped.unique (cellGrid_pos hC.wf.toPos hb) (cellMesh_tiling hC.wf.toPos hb hs.tiling) (fun _ _ => rfl)
    (hv c hc y hy i) h2

theorem vol_part (C : Config d K ι ν S) {a c : Oct d} (ha : C.grid.lmin ≤ a.level) (hp : PartOf a c) :
    vol C a = 2 ^ d * vol C c := by
  let x : Fin d → ℕ := fun _ => 0
  rw [vol_eq_volume C a x, vol_eq_volume C c x]
  unfold volume
  have h2 : (2 : ℚ) ^ d = ∏ _k : Fin d, 2 := by rw [Finset.prod_const, Finset.card_univ, Fintype.card_fin]
  rw [h2, ← Finset.prod_mul_distrib]
  refine Finset.prod_congr rfl fun k _ => ?_
  rw [cellSize_succ C.dom (G := cellGrid C.grid C.blk) (c := cellOct C.blk a x) (q := cellOct C.blk c x) ha hp.1]
  ring

/-- **C107 (mass).** If `mass_refine` is at least `2^d` times `mass_coarsen`, an octant that an AMR step has merged is not
marked for refinement when the next AMR step begins with the same fields; and an octant marked for refinement is not back
after a second AMR step. -/
theorem C107_mass_settles (hC : C.Ok) (hP : P ≤ ∏ k, C.grid.coarse k) {time : K} {ops : List Op} {i : ι}
    (hrho : ∀ u, C.rho u = u i) {t₁ t₂ : K} (hc : C.condition = .mass t₁ t₂) (ht : 2 ^ d * t₂ ≤ t₁)
    (h : simulate C time ops = some s) (e : step C s .amr = some t) :
    (∀ r o, o ∈ t.ranks.octs r → ∀ r' a, a ∈ s.ranks.octs r' → PartOf o a → marks C t o ≠ some 1) ∧
    (∀ r a, a ∈ s.ranks.octs r → marks C s a = some 1 →
      ∃ r' c, c ∈ t.ranks.octs r' ∧ PartOf a c ∧ marks C t c ≠ some (-1)) ∧
    ∀ u, step C t .amr = some u → ∀ r a, a ∈ s.ranks.octs r → marks C s a = some 1 → ∀ r', a ∉ u.ranks.octs r' := by
  have : Nonempty ι := ⟨i⟩
  have hs := simulate_ok hC hP h
  have ht' : Ok C t := (step_same hC hs hs (Same.refl hs) e e).1
  have hd : (0 : K) < 2 ^ d := by positivity
  have part2 : ∀ r a, a ∈ s.ranks.octs r → marks C s a = some 1 →
      ∃ r' c, c ∈ t.ranks.octs r' ∧ PartOf a c ∧ marks C t c ≠ some (-1) := by
    intro r a ha hm1
    obtain ⟨m, h1, h2, -⟩ := mass_marks hC hs hc ha
    rw [hm1, Option.some.injEq] at h1
    obtain ⟨-, x, hx, h3⟩ := h2.1 h1.symm
    have hg : gMark C s.ranks.mesh s.field a = 1 := by
      have := rank_marks hC hs (mem_mesh ha); rw [hm1] at this; exact (Option.some.inj this).symm
    obtain ⟨c, y, hcm, hp, hy, hv⟩ := amr_cut hC hs e (mem_mesh ha) hg hx
    obtain ⟨r', hr'⟩ := (mem_leaves _ _).1 hcm
    refine ⟨r', c, hr', hp, fun hbad => ?_⟩
    obtain ⟨m', g1, -, g3⟩ := mass_marks hC ht' hc hr'
    rw [hbad, Option.some.injEq] at g1
    have h4 := ((g3.1 g1.symm).2 y hy).2
    have h5 := hv i
    unfold State.field at h5
    rw [owner_eq ht' hr', owner_eq hs ha] at h5
    rw [hrho] at h3 h4
    rw [h5] at h4
    rw [vol_part C (hs.levels a (mem_mesh ha)).1 hp] at h3
    push_cast at h3
    have h6 := mul_le_mul_of_nonneg_left h4 hd.le
    have h7 : s.data r a x i * (2 ^ d * (vol C c : K)) = 2 ^ d * (s.data r a x i * (vol C c : K)) := by ring
    linarith
  refine ⟨fun r o ho r' a ha hp hbad => ?_, part2, fun u eu r a ha hm1 r' hau => ?_⟩
  · obtain ⟨m, h1, h2, -⟩ := mass_marks hC ht' hc ho
    rw [hbad, Option.some.injEq] at h1
    obtain ⟨-, x, hx, h3⟩ := h2.1 h1.symm
    obtain ⟨-, hsum⟩ := amr_merged hC hs e (mem_mesh ho) (mem_mesh ha) hp
    obtain ⟨c, y, hcy, hsum⟩ := hsum x hx
    have hle : ∀ q, s.field (c q) (y q) i * (vol C a : K) ≤ t₂ := by
      intro q
      obtain ⟨hcq, hpq, hyq⟩ := hcy q
      obtain ⟨rq, hrq⟩ := (mem_leaves _ _).1 hcq
      obtain ⟨m', g1, -, g3⟩ := mass_marks hC hs hc hrq
      rw [rank_marks hC hs hcq, (amr_merged hC hs e (mem_mesh ho) hcq hpq).1, Option.some.injEq] at g1
      have h4 := ((g3.1 g1.symm).2 (y q) hyq).2
      rw [hrho] at h4
      have hl := (ht'.levels o (mem_mesh ho)).1
      have hv : vol C a = vol C (c q) := by
        have h5 := vol_part C hl hp
        rw [vol_part C hl hpq] at h5
        have : (2 : ℚ) ^ d ≠ 0 := by positivity
        exact (mul_left_cancel₀ this h5).symm
      unfold State.field
      rw [owner_eq hs hrq, hv]
      exact h4
    have h5 := hsum i
    unfold State.field at h5
    rw [owner_eq ht' ho] at h5
    rw [hrho, vol_part C (ht'.levels o (mem_mesh ho)).1 hp] at h3
    push_cast at h3
    have h6 : t.data r o x i * (2 ^ d * (vol C a : K)) = ∑ q, s.field (c q) (y q) i * (vol C a : K) := by
      rw [← mul_assoc, h5, Finset.sum_mul]
      rfl
    have h7 : ∑ q : Fin d → Fin 2, s.field (c q) (y q) i * (vol C a : K) ≤ ∑ _q : Fin d → Fin 2, t₂ :=
      Finset.sum_le_sum fun q _ => hle q
    rw [Finset.sum_const, Finset.card_univ, Fintype.card_fun, Fintype.card_fin, Fintype.card_fin, nsmul_eq_mul] at h7
    push_cast at h7
    linarith
  · obtain ⟨r₂, c, hc2, hp, hne⟩ := part2 r a ha hm1
    exact hne (by rw [rank_marks hC ht' (mem_mesh hc2), (amr_merged hC ht' eu (mem_mesh hau) (mem_mesh hc2) hp).1])

/-- **C107 (downflows).** The same if the densities are positive and the threshold for coarsening is not above the one for
refinement. -/
theorem C107_downflows_settles (hC : C.Ok) (hP : P ≤ ∏ k, C.grid.coarse k) {time : K} {ops : List Op} {i j : ι}
    (hrho : ∀ u, C.rho u = u i) {sign t₁ t₂ : K} (hc : C.condition = .downflows sign (fun u => u j) t₁ t₂) (ht : t₂ ≤ t₁)
    (h : simulate C time ops = some s) (e : step C s .amr = some t)
    (hpos : ∀ r, ∀ o ∈ s.ranks.octs r, ∀ x, (∀ k, x k < C.blk k) → 0 < s.data r o x i)
    (hpos' : ∀ r, ∀ o ∈ t.ranks.octs r, ∀ x, (∀ k, x k < C.blk k) → 0 < t.data r o x i) :
    (∀ r o, o ∈ t.ranks.octs r → ∀ r' a, a ∈ s.ranks.octs r' → PartOf o a → marks C t o ≠ some 1) ∧
    (∀ r a, a ∈ s.ranks.octs r → marks C s a = some 1 →
      ∃ r' c, c ∈ t.ranks.octs r' ∧ PartOf a c ∧ marks C t c ≠ some (-1)) ∧
    ∀ u, step C t .amr = some u → ∀ r a, a ∈ s.ranks.octs r → marks C s a = some 1 → ∀ r', a ∉ u.ranks.octs r' := by
  have : Nonempty ι := ⟨i⟩
  have hs := simulate_ok hC hP h
  have ht' : Ok C t := (step_same hC hs hs (Same.refl hs) e e).1
  have hd : (0 : K) < 2 ^ d := by positivity
  have mks : ∀ {r a}, a ∈ s.ranks.octs r → _ := fun {r a} ha => downflow_marks hC hs hc (r := r) (o := a) ha
    fun x hx => by rw [hrho]; exact (hpos r a ha x hx).ne'
  have mkt : ∀ {r a}, a ∈ t.ranks.octs r → _ := fun {r a} ha => downflow_marks hC ht' hc (r := r) (o := a) ha
    fun x hx => by rw [hrho]; exact (hpos' r a ha x hx).ne'
  have part2 : ∀ r a, a ∈ s.ranks.octs r → marks C s a = some 1 →
      ∃ r' c, c ∈ t.ranks.octs r' ∧ PartOf a c ∧ marks C t c ≠ some (-1) := by
    intro r a ha hm1
    obtain ⟨m, h1, h2, -⟩ := mks ha
    rw [hm1, Option.some.injEq] at h1
    obtain ⟨-, x, hx, h3⟩ := h2.1 h1.symm
    have hg : gMark C s.ranks.mesh s.field a = 1 := by
      have := rank_marks hC hs (mem_mesh ha); rw [hm1] at this; exact (Option.some.inj this).symm
    obtain ⟨c, y, hcm, hp, hy, hv⟩ := amr_cut hC hs e (mem_mesh ha) hg hx
    obtain ⟨r', hr'⟩ := (mem_leaves _ _).1 hcm
    refine ⟨r', c, hr', hp, fun hbad => ?_⟩
    obtain ⟨m', g1, -, g3⟩ := mkt hr'
    rw [hbad, Option.some.injEq] at g1
    have h4 := ((g3.1 g1.symm).2 y hy).2
    have h5 := hv i
    have h6 := hv j
    unfold State.field at h5 h6
    rw [owner_eq ht' hr', owner_eq hs ha] at h5 h6
    rw [hrho] at h3 h4
    rw [h5, h6] at h4
    linarith
  refine ⟨fun r o ho r' a ha hp hbad => ?_, part2, fun u eu r a ha hm1 r' hau => ?_⟩
  · obtain ⟨m, h1, h2, -⟩ := mkt ho
    rw [hbad, Option.some.injEq] at h1
    obtain ⟨-, x, hx, h3⟩ := h2.1 h1.symm
    obtain ⟨-, hsum⟩ := amr_merged hC hs e (mem_mesh ho) (mem_mesh ha) hp
    obtain ⟨c, y, hcy, hsum⟩ := hsum x hx
    have hle : ∀ q, sign * s.field (c q) (y q) j ≤ t₂ * s.field (c q) (y q) i := by
      intro q
      obtain ⟨hcq, hpq, hyq⟩ := hcy q
      obtain ⟨rq, hrq⟩ := (mem_leaves _ _).1 hcq
      obtain ⟨m', g1, -, g3⟩ := mks hrq
      rw [rank_marks hC hs hcq, (amr_merged hC hs e (mem_mesh ho) hcq hpq).1, Option.some.injEq] at g1
      have h4 := ((g3.1 g1.symm).2 (y q) hyq).2
      rw [hrho] at h4
      unfold State.field
      rw [owner_eq hs hrq]
      have hq := hpos rq _ hrq (y q) hyq
      rwa [← mul_div_assoc, div_le_iff₀ hq] at h4
    have h5 := hsum i
    have h6 := hsum j
    unfold State.field at h5 h6
    rw [owner_eq ht' ho] at h5 h6
    have hq := hpos' r o ho x hx
    rw [hrho, ← mul_div_assoc, lt_div_iff₀ hq] at h3
    have h7 : ∑ q : Fin d → Fin 2, sign * s.field (c q) (y q) j ≤ ∑ q : Fin d → Fin 2, t₂ * s.field (c q) (y q) i :=
      Finset.sum_le_sum fun q _ => hle q
    rw [← Finset.mul_sum, ← Finset.mul_sum] at h7
    unfold State.field at h7
    rw [← h5, ← h6] at h7
    have h8 := mul_lt_mul_of_pos_right h3 hd
    have h9 := mul_le_mul_of_nonneg_right ht (mul_pos hq hd).le
    linarith
  · obtain ⟨r₂, c, hc2, hp, hne⟩ := part2 r a ha hm1
    exact hne (by rw [rank_marks hC ht' (mem_mesh hc2), (amr_merged hC ht' eu (mem_mesh hau) (mem_mesh hc2) hp).1])

end Verif.Sim
