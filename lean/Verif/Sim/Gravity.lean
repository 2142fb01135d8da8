import Verif.Sim.Steps
import Verif.Gravity.Force

/-!
# C90: the gravity solver on all ranks

Model of `GravitySolver_cg::update_gravity_field` (`core/src/gravity/GravitySolver_cg.cpp` L237-423) as it runs on ranks:
every rank has arrays for its octants and ghosts, kernels write the cells of its own octants, ghosts are exchanged in the
layers of their masks, sums are added over ranks. Arithmetic is exact.
-/

namespace Verif.Sim

open Verif.Octree Verif.Cells Verif.Adapt Verif.Flux Verif.Hydro Verif.Hydro.OneNeighbor Verif.Gravity Verif.Run
open Verif.Partition (InLayers Within)

variable {d P : ℕ} {F : Type} [Field F] [LinearOrder F]

/-! ### Model -/

/-- One array per rank. -/
abbrev RFld (d P : ℕ) (F : Type) := Fin P → Fld d F

/-- `reduce_cell` over the cells of each rank, then `MPI_Allreduce_scalar` (L222-227). -/
def sumRanks (s : Ranks d P) (b : Fin d → ℕ) (f : RFld d P F) : F :=
  ∑ r, ∑ o ∈ (s.octs r).toFinset, ∑ x ∈ Fintype.piFinset fun k => Finset.range (b k), f r o x

/-- A kernel over the cells of all ranks: undefined if it is undefined in one of them. -/
def sweepRanks (s : Ranks d P) (b : Fin d → ℕ) (f : Fin P → Oct d → (Fin d → ℕ) → Option F) : Option (RFld d P F) :=
  if ∀ r, ∀ o ∈ s.octs r, ∀ x ∈ Fintype.piFinset fun k => Finset.range (b k), (f r o x).isSome then
    some fun r o x => (f r o x).getD 0
  else none

/-- Kernels write the cells of the octants of a rank; the ghosts stay. -/
def store {T : Type} (s : Ranks d P) (new old : Fin P → Oct d → (Fin d → ℕ) → T) : Fin P → Oct d → (Fin d → ℕ) → T :=
  fun r o x => if o ∈ s.octs r then new r o x else old r o x

/-- `CGdata`, and the scalar `r_dot_z`. -/
structure CGRanks (d P : ℕ) (F : Type) where
  phi : RFld d P F
  p : RFld d P F
  r : RFld d P F
  rz : F

/-- What the kernels of the solver are given. -/
structure Poisson (d : ℕ) where
  /-- `boundarycondition[dir] == BC_ABSORBING` -/
  absorbing : Fin d → Bool
  dom : Domain d
  grid : Grid d
  blk : Fin d → ℕ

/-- L277-302. `f` is the right-hand side, `phi0` the array `gphi` of `U`, `old` what `CGdata` holds when it is
allocated. -/
def CGRanks.init [NeZero P] (C : Poisson d) (s : Ranks d P) (f phi0 : RFld d P F) (old : CGRanks d P F) : Option (CGRanks d P F) :=
  (sweepRanks s C.blk fun q => matprod C.absorbing (phi0 q) C.dom C.grid (rankMap s q) C.blk).map fun Ax =>
    let r : RFld d P F := fun q o x => f q o x - Ax q o x
    let z : RFld d P F := fun q o x => r q o x / diag C.dom C.grid C.blk o x
    ⟨store s phi0 old.phi, store s z old.p, store s r old.r, sumRanks s C.blk fun q o x => r q o x * z q o x⟩

/-- L313-364. The exchange (L313) is of one layer (L244) of all three arrays. -/
def CGRanks.step [NeZero P] (C : Poisson d) (s : Ranks d P) (st : CGRanks d P F) : Option (CGRanks d P F) :=
  let p := exchangeLayers s C.blk 1 st.p
  let phi := exchangeLayers s C.blk 1 st.phi
  let r := exchangeLayers s C.blk 1 st.r
  (sweepRanks s C.blk fun q => matprod C.absorbing (p q) C.dom C.grid (rankMap s q) C.blk).bind fun Ap =>
    let pAp := sumRanks s C.blk fun q o x => p q o x * Ap q o x
    if pAp = 0 ∨ st.rz = 0 then none else
    let alpha := st.rz / pAp
    let phi' := store s (fun q o x => phi q o x + alpha * p q o x) phi
    let r' := store s (fun q o x => r q o x - alpha * Ap q o x) r
    let rz := sumRanks s C.blk fun q o x => r' q o x * (r' q o x / diag C.dom C.grid C.blk o x)
    let beta := rz / st.rz
    some ⟨phi', store s (fun q o x => r' q o x / diag C.dom C.grid C.blk o x + beta * p q o x) p, r', rz⟩

/-- L308-365: the loop, for at most `n` iterations. -/
def CGRanks.loop [NeZero P] (C : Poisson d) (s : Ranks d P) (eps B : F) : ℕ → CGRanks d P F → Option (CGRanks d P F)
  | 0, _ => none
  | n + 1, st =>
    if continues eps (sumRanks s C.blk fun q o x => st.r q o x * st.r q o x) B then
      (CGRanks.step C s st).bind (CGRanks.loop C s eps B n)
    else some st

/-- L260-269: `rho_mean`. -/
def meanRanks (C : Poisson d) (s : Ranks d P) (rho : RFld d P F) : F :=
  sumRanks s C.blk (fun q o x => rho q o x * (cellVolume C.dom C.grid C.blk o x : F)) /
    ((∏ k, (C.dom.xmax k - C.dom.xmin k) : ℚ) : F)

/-- `update_gravity_field`: the arrays `gphi` and `gx`, `gy`, `gz` afterwards. `source mean` is `b` or `b_cosmo`
(L199, L219). Before the call `DyabloTimeLoop.h` L671-675 exchanges `gc` layers of `gphi`. The loop ends the model after
`n` iterations without result. -/
def updateGravity [NeZero P] (C : Poisson d) (s : Ranks d P) (gc : ℕ) (eps : F) (n : ℕ) (source : F → Fld d F → Fld d F)
    (rho gphi : RFld d P F) (g : Fin P → Oct d → (Fin d → ℕ) → Fin d → F) (old : CGRanks d P F) :
    Option (RFld d P F × (Fin P → Oct d → (Fin d → ℕ) → Fin d → F)) :=
  let phi0 := exchangeLayers s C.blk gc gphi
  let f : RFld d P F := fun q => source (meanRanks C s rho) (rho q)
  (CGRanks.init C s f phi0 old).bind fun st0 =>
    (CGRanks.loop C s eps (sumRanks s C.blk fun q o x => f q o x * f q o x) n st0).bind fun st =>
      let phi := exchangeLayers s C.blk 1 st.phi
      let a := fun q => gradient C.absorbing (phi q) C.dom C.grid (rankMap s q) C.blk
      if ∀ q, ∀ o ∈ s.octs q, ∀ x ∈ Fintype.piFinset fun k => Finset.range (C.blk k), ∀ j, (a q o x j).isSome then
        some (store s phi phi0, store s (fun q o x j => (a q o x j).getD 0) g)
      else none

/-! ### Specification -/

/-- The same on the whole mesh: mean density, solver of C49, force of C88. -/
def globalGravity (C : Poisson d) (M : Finset (Oct d)) (eps : F) (n : ℕ) (source : F → Fld d F → Fld d F)
    (rho gphi : Fld d F) : Option (Fld d F × (Oct d → (Fin d → ℕ) → Fin d → Option F)) :=
  (solve C.absorbing C.dom C.grid M C.blk eps n (source (rhoMean C.dom C.grid M C.blk rho) rho) gphi).map fun phi =>
    (phi, gradient C.absorbing phi C.dom C.grid M C.blk)

/-- Every rank has the values of `g` in the cells of its own octants. -/
def Own {T : Type} (s : Ranks d P) (b : Fin d → ℕ) (f : Fin P → Oct d → (Fin d → ℕ) → T)
    (g : Oct d → (Fin d → ℕ) → T) : Prop :=
  ∀ r, ∀ o ∈ s.octs r, ∀ x : Fin d → ℕ, (∀ k, x k < b k) → f r o x = g o x

/-! ### Kernels -/

section kernels

variable {G : Grid d} {M Mr : Finset (Oct d)} {o : Oct d} {x : Fin d → ℕ} {b : Fin d → ℕ}

omit [LinearOrder F] in
theorem getValue_congr (h : Around G M Mr o) (hx : ∀ k, x k < b k) {u v : Fld d F} (hu : AgreeNear G b Mr o u v)
    (j : Fin d) {s : ℤ} (hs : s = 1 ∨ s = -1) :
    ∃ r a, getNeighborGhost G M ⟨o, x, b, .localToBlock⟩ (faceOff j s) = some r ∧
      getNeighborGhost G Mr ⟨o, x, b, .localToBlock⟩ (faceOff j s) = some r ∧
      getValue u G Mr r (faceOff j s) = some a ∧ getValue v G M r (faceOff j s) = some a := by
  obtain ⟨r, e1, e2, hr⟩ := reads h.wf h.tiling h.balanced h.sub (cellAt b o x) (h.sub _ h.mem) h.complete hx rfl j hs
  unfold cellAt at e1 e2
  unfold getValue
  by_cases hb : r.status = .boundary
  · exact ⟨r, 0, e1, e2, by rw [if_pos hb], by rw [if_pos hb]⟩
  obtain ⟨-, -, hi, hr⟩ := hr.resolve_left hb
  refine ⟨r, ?_⟩
  simp only [if_neg hb, e1, e2]
  rcases hr with ⟨hl, hm, ht⟩ | ⟨hl, f, hf⟩
  · have := hu.2 _ hm _ _ hx hi ht
    have hl' : 0 ≤ r.levelDiff := by omega
    simp only [ge_iff_le, if_pos hl', this]
    exact ⟨_, trivial, trivial, rfl, rfl⟩
  · have hl' : ¬ 0 ≤ r.levelDiff := by omega
    simp only [ge_iff_le, if_neg hl']
    unfold foreachSmallerNeighbor
    rw [List.mapM_map, List.mapM_map, loops_mapM_some _ (id ∘ getSiblingCell true G Mr r) f fun δ hδ => (hf δ hδ).2.1,
      loops_mapM_some _ (id ∘ getSiblingCell true G M r) f fun δ hδ => (hf δ hδ).1]
    refine ⟨_, trivial, trivial, rfl, ?_⟩
    simp only [Option.map_some, List.map_map, List.length_map, Option.some.injEq]
    congr 2
    refine List.map_congr_left fun δ hδ => ?_
    obtain ⟨-, -, -, h2, h3, h4⟩ := hf δ hδ
    exact (hu.2 _ h2 _ _ hx h3 h4).symm

omit [LinearOrder F] in
theorem matprod_congr (h : Around G M Mr o) (hx : ∀ k, x k < b k) {u v : Fld d F} (hu : AgreeNear G b Mr o u v)
    (absorbing : Fin d → Bool) (D : Domain d) :
    ∃ a, matprod absorbing u D G Mr b o x = some a ∧ matprod absorbing v D G M b o x = some a := by
  unfold matprod
  refine mapM_both_map _ fun j _ => ?_
  obtain ⟨rR, vR, h1, h2, h3, h4⟩ := getValue_congr h hx hu j (Or.inl rfl)
  obtain ⟨rL, vL, k1, k2, k3, k4⟩ := getValue_congr h hx hu j (s := -1) (Or.inr rfl)
  unfold matprodDir
  rw [h1, h2, k1, k2]
  simp only [Option.bind_some]
  rw [h3, h4, k3, k4, hu.1 x hx]
  exact ⟨_, rfl, rfl⟩

omit [LinearOrder F] in
theorem gradient_congr (h : Around G M Mr o) (hx : ∀ k, x k < b k) {u v : Fld d F} (hu : AgreeNear G b Mr o u v)
    (absorbing : Fin d → Bool) (D : Domain d) (j : Fin d) :
    ∃ a, gradient absorbing u D G Mr b o x j = some a ∧ gradient absorbing v D G M b o x j = some a := by
  obtain ⟨rR, vR, h1, h2, h3, h4⟩ := getValue_congr h hx hu j (Or.inl rfl)
  obtain ⟨rL, vL, k1, k2, k3, k4⟩ := getValue_congr h hx hu j (s := -1) (Or.inr rfl)
  unfold gradient
  rw [h1, h2, k1, k2]
  simp only [Option.bind_some]
  rw [h3, h4, k3, k4, hu.1 x hx]
  exact ⟨_, rfl, rfl⟩

end kernels

/-! ### Arrays of ranks and fields on the mesh -/

section ranks

variable [NeZero P] {e L : ℕ} {G : Grid d} {s : Ranks d P} {b : Fin d → ℕ}

omit [NeZero P] in
theorem Own.store {T : Type} {f f' : Fin P → Oct d → (Fin d → ℕ) → T} {g : Oct d → (Fin d → ℕ) → T}
    (h : Own s b f g) : Own s b (store s f f') g := by
  intro r o ho x hx
  unfold Sim.store
  rw [if_pos ho]
  exact h r o ho x hx

theorem Own.exchange (hs : Good e L G s) {T : Type} {f : Fin P → Oct d → (Fin d → ℕ) → T}
    {g : Oct d → (Fin d → ℕ) → T} (h : Own s b f g) (gc : ℕ) : Own s b (exchangeLayers s b gc f) g := by
  intro r o ho x hx
  unfold exchangeLayers
  rw [owner_eq hs ho, ite_self]
  exact h r o ho x hx

/-- What a kernel reads next to an octant after an exchange. -/
theorem Own.near (hG : G.WF) (hs : Good e L G s) {T : Type} {f : Fin P → Oct d → (Fin d → ℕ) → T}
    {g : Oct d → (Fin d → ℕ) → T} (h : Own s b f g) {gc : ℕ} (hgc : 1 ≤ gc) {r : Fin P} {o : Oct d} (ho : o ∈ s.octs r) :
    AgreeNear G b (rankMap s r) o (exchangeLayers s b gc f r) g := by
  have h1 := exchangeLayers_near hG hs f ho (b := b) (gc := gc) fun _ => hgc
  refine ⟨fun x hx => ?_, fun o' h' x x' hx hx' ht => ?_⟩
  · rw [h1.1 x hx]
    exact h _ o (owner_mem _ (mem_mesh ho)) x hx
  · rw [h1.2 o' h' x x' hx hx' ht]
    exact h _ o' (owner_mem _ ((around hG hs ho).sub o' h')) x' hx'

omit [LinearOrder F] in
theorem sumRanks_eq (hs : Good e L G s) {f : RFld d P F} {g : Fld d F} (h : Own s b f g) :
    sumRanks s b f = cellSum b s.mesh g := by
  have hm : s.mesh = Finset.univ.biUnion fun r => (s.octs r).toFinset := by
    ext o
    unfold Ranks.mesh
    rw [mem_leaves]
    simp
  unfold sumRanks cellSum
  rw [hm, Finset.sum_biUnion]
  · refine Finset.sum_congr rfl fun r _ => Finset.sum_congr rfl fun o ho => Finset.sum_congr rfl fun x hx => ?_
    exact h r o (List.mem_toFinset.1 ho) x fun k => Finset.mem_range.1 (Fintype.mem_piFinset.1 hx k)
  · intro r _ r' _ hne
    rw [Function.onFun, Finset.disjoint_left]
    intro o h h'
    exact hne (hs.rank_unique (List.mem_toFinset.1 h) (List.mem_toFinset.1 h'))

omit [LinearOrder F] in
/-- The operator on all ranks is the operator on the mesh. -/
theorem sweep_ranks (hG : G.WF) (hs : Good e L G s) {f : RFld d P F} {g : Fld d F} (h : Own s b f g) {gc : ℕ}
    (hgc : 1 ≤ gc) (absorbing : Fin d → Bool) (D : Domain d) :
    ∃ A B, sweepRanks s b (fun q => matprod absorbing (exchangeLayers s b gc f q) D G (rankMap s q) b) = some A ∧
      sweep s.mesh b (matprod absorbing g D G s.mesh b) = some B ∧ Own s b A B := by
  have key : ∀ r, ∀ o ∈ s.octs r, ∀ x : Fin d → ℕ, (∀ k, x k < b k) →
      ∃ a, matprod absorbing (exchangeLayers s b gc f r) D G (rankMap s r) b o x = some a ∧
        matprod absorbing g D G s.mesh b o x = some a := fun r o ho x hx =>
    matprod_congr (around hG hs ho) hx (h.near hG hs hgc ho) absorbing D
  have hp : ∀ {x : Fin d → ℕ}, (x ∈ Fintype.piFinset fun k => Finset.range (b k)) → ∀ k, x k < b k := fun hx k =>
    Finset.mem_range.1 (Fintype.mem_piFinset.1 hx k)
  unfold sweepRanks sweep
  rw [if_pos, if_pos]
  · refine ⟨_, _, rfl, rfl, fun r o ho x hx => ?_⟩
    obtain ⟨a, h1, h2⟩ := key r o ho x hx
    simp only [h1, h2]
  · intro o ho x hx
    obtain ⟨a, -, h2⟩ := key _ o (owner_mem _ ho) x (hp hx)
    rw [h2]; rfl
  · intro r o ho x hx
    obtain ⟨a, h1, -⟩ := key r o ho x (hp hx)
    simp only [h1]; rfl

/-- The state of the solver on ranks is that on the mesh. -/
structure SameCG (s : Ranks d P) (b : Fin d → ℕ) (st : CGRanks d P F) (gst : CG d F) : Prop where
  phi : Own s b st.phi gst.phi
  p : Own s b st.p gst.p
  r : Own s b st.r gst.r
  rz : st.rz = gst.rz

variable {C : Poisson d}

omit [LinearOrder F] in
theorem cgInit_same (hG : C.grid.WF) (hs : Good e L C.grid s) {f gphi : RFld d P F} {gf phi0 : Fld d F}
    (hf : Own s C.blk f gf) (h0 : Own s C.blk gphi phi0) {gc : ℕ} (hgc : 1 ≤ gc) (old : CGRanks d P F) :
    ∃ st gst, CGRanks.init C s f (exchangeLayers s C.blk gc gphi) old = some st ∧
      CG.init C.absorbing C.dom C.grid s.mesh C.blk gf phi0 = some gst ∧ SameCG s C.blk st gst := by
  obtain ⟨A, B, h1, h2, h3⟩ := sweep_ranks hG hs h0 hgc C.absorbing C.dom
  unfold CGRanks.init CG.init
  rw [h1, h2]
  have hr : Own s C.blk (fun q o x => f q o x - A q o x) fun o x => gf o x - B o x := fun r o ho x hx => by
    simp only
    rw [hf r o ho x hx, h3 r o ho x hx]
  have hz : Own s C.blk (fun q o x => (f q o x - A q o x) / diag C.dom C.grid C.blk o x)
      fun o x => (gf o x - B o x) / diag C.dom C.grid C.blk o x := fun r o ho x hx => by
    simp only
    rw [hf r o ho x hx, h3 r o ho x hx]
  refine ⟨_, _, rfl, rfl, (h0.exchange hs gc).store, hz.store, hr.store, ?_⟩
  refine sumRanks_eq hs fun r o ho x hx => ?_
  simp only
  rw [hf r o ho x hx, h3 r o ho x hx]

/-- Both computations fail, or both have results that are related. -/
def Both {A B : Type} (R : A → B → Prop) (x : Option A) (y : Option B) : Prop :=
  (∃ a c, x = some a ∧ y = some c ∧ R a c) ∨ (x = none ∧ y = none)

theorem cgStep_same (hG : C.grid.WF) (hs : Good e L C.grid s) {st : CGRanks d P F} {gst : CG d F}
    (h : SameCG s C.blk st gst) :
    Both (SameCG s C.blk) (CGRanks.step C s st) (CG.step C.absorbing C.dom C.grid s.mesh C.blk gst) := by
  obtain ⟨A, B, h1, h2, h3⟩ := sweep_ranks hG hs h.p (le_refl 1) C.absorbing C.dom
  have hp := h.p.exchange hs 1
  have hphi := h.phi.exchange hs 1
  have hr := h.r.exchange hs 1
  have e1 : sumRanks s C.blk (fun q o x => exchangeLayers s C.blk 1 st.p q o x * A q o x) =
      cellSum C.blk s.mesh fun o x => gst.p o x * B o x := sumRanks_eq hs fun r o ho x hx => by
    rw [hp r o ho x hx, h3 r o ho x hx]
  unfold CGRanks.step CG.step
  simp only [h1, h2, Option.bind_some, e1, h.rz]
  split
  · exact Or.inr ⟨rfl, rfl⟩
  · set al := gst.rz / cellSum C.blk s.mesh fun o x => gst.p o x * B o x with hal
    have hr' : Own s C.blk (store s (fun q o x => exchangeLayers s C.blk 1 st.r q o x - al * A q o x)
        (exchangeLayers s C.blk 1 st.r)) fun o x => gst.r o x - al * B o x := Own.store fun r o ho x hx => by
      rw [hr r o ho x hx, h3 r o ho x hx]
    have e2 : sumRanks s C.blk (fun q o x =>
        store s (fun q o x => exchangeLayers s C.blk 1 st.r q o x - al * A q o x) (exchangeLayers s C.blk 1 st.r) q o x *
          (store s (fun q o x => exchangeLayers s C.blk 1 st.r q o x - al * A q o x) (exchangeLayers s C.blk 1 st.r) q o x /
            diag C.dom C.grid C.blk o x)) =
        cellSum C.blk s.mesh fun o x => (gst.r o x - al * B o x) * ((gst.r o x - al * B o x) / diag C.dom C.grid C.blk o x) :=
      sumRanks_eq hs fun r o ho x hx => by rw [hr' r o ho x hx]
    refine Or.inl ⟨_, _, rfl, rfl, ?_, ?_, hr', e2⟩
    · refine Own.store fun r o ho x hx => ?_
      simp only
      rw [hphi r o ho x hx, hp r o ho x hx]
    · refine Own.store fun r o ho x hx => ?_
      simp only
      rw [hr' r o ho x hx, hp r o ho x hx, e2]

theorem cgLoop_same (hG : C.grid.WF) (hs : Good e L C.grid s) (eps B : F) (n : ℕ) {st : CGRanks d P F} {gst : CG d F}
    (h : SameCG s C.blk st gst) :
    Both (SameCG s C.blk) (CGRanks.loop C s eps B n st) (CG.loop C.absorbing C.dom C.grid s.mesh C.blk eps B n gst) := by
  induction n generalizing st gst with
  | zero => exact Or.inr ⟨rfl, rfl⟩
  | succ n ih =>
    have e1 : sumRanks s C.blk (fun q o x => st.r q o x * st.r q o x) =
        cellSum C.blk s.mesh fun o x => gst.r o x * gst.r o x :=
      sumRanks_eq hs fun r o ho x hx => by rw [h.r r o ho x hx]
    unfold CGRanks.loop CG.loop
    rw [e1]
    split
    · rcases cgStep_same hG hs h with ⟨st1, gst1, h1, h2, h3⟩ | ⟨h1, h2⟩
      · rw [h1, h2]
        exact ih h3
      · rw [h1, h2]
        exact Or.inr ⟨rfl, rfl⟩
    · exact Or.inl ⟨_, _, rfl, rfl, h⟩

/-- What the solver leaves on the ranks is what it computes on the mesh. -/
def SameGravity (s : Ranks d P) (b : Fin d → ℕ) (u : RFld d P F × (Fin P → Oct d → (Fin d → ℕ) → Fin d → F))
    (g : Fld d F × (Oct d → (Fin d → ℕ) → Fin d → Option F)) : Prop :=
  Own s b u.1 g.1 ∧ Own s b (fun r o x j => some (u.2 r o x j)) g.2

theorem gravity_same (hG : C.grid.WF) (hs : Good e L C.grid s) {gc : ℕ} (hgc : 1 ≤ gc) (eps : F) (n : ℕ)
    {source : F → Fld d F → Fld d F}
    (hsrc : ∀ m (u v : Fld d F) o x, u o x = v o x → source m u o x = source m v o x) {rho gphi : RFld d P F}
    {grho phi0 : Fld d F} (hrho : Own s C.blk rho grho) (h0 : Own s C.blk gphi phi0)
    (g : Fin P → Oct d → (Fin d → ℕ) → Fin d → F) (old : CGRanks d P F) :
    Both (SameGravity s C.blk) (updateGravity C s gc eps n source rho gphi g old)
      (globalGravity C s.mesh eps n source grho phi0) := by
  have em : meanRanks C s rho = rhoMean C.dom C.grid s.mesh C.blk grho := by
    unfold meanRanks rhoMean
    rw [sumRanks_eq hs (g := fun o x => grho o x * (cellVolume C.dom C.grid C.blk o x : F))
      fun r o ho x hx => by rw [hrho r o ho x hx]]
  set m := rhoMean C.dom C.grid s.mesh C.blk grho with hm
  have hf : Own s C.blk (fun q => source m (rho q)) (source m grho) := fun r o ho x hx => hsrc _ _ _ _ _ (hrho r o ho x hx)
  obtain ⟨st, gst, h1, h2, h3⟩ := cgInit_same hG hs hf h0 hgc old
  have eB : sumRanks s C.blk (fun q o x => source m (rho q) o x * source m (rho q) o x) =
      cellSum C.blk s.mesh fun o x => source m grho o x * source m grho o x :=
    sumRanks_eq hs fun r o ho x hx => by
      have := hf r o ho x hx
      simp only at this
      rw [this]
  unfold updateGravity globalGravity solve
  simp only [em, ← hm, h1, h2, Option.bind_some, eB]
  rcases cgLoop_same hG hs eps _ n h3 with ⟨st1, gst1, k1, k2, k3⟩ | ⟨k1, k2⟩
  · rw [k1, k2]
    simp only [Option.bind_some, Option.map_some]
    have key : ∀ r, ∀ o ∈ s.octs r, ∀ x : Fin d → ℕ, (∀ k, x k < C.blk k) → ∀ j,
        ∃ a, gradient C.absorbing (exchangeLayers s C.blk 1 st1.phi r) C.dom C.grid (rankMap s r) C.blk o x j = some a ∧
          gradient C.absorbing gst1.phi C.dom C.grid s.mesh C.blk o x j = some a := fun r o ho x hx j =>
      gradient_congr (around hG hs ho) hx (k3.phi.near hG hs (le_refl 1) ho) C.absorbing C.dom j
    rw [if_pos]
    · refine Or.inl ⟨_, _, rfl, rfl, Own.store (k3.phi.exchange hs 1), fun r o ho x hx => ?_⟩
      funext j
      obtain ⟨a, a1, a2⟩ := key r o ho x hx j
      simp only [store, if_pos ho, a1, a2]
      rfl
    · intro r o ho x hx j
      obtain ⟨a, a1, -⟩ := key r o ho x (fun k => Finset.mem_range.1 (Fintype.mem_piFinset.1 hx k)) j
      rw [a1]; rfl
  · rw [k1, k2]
    exact Or.inr ⟨rfl, rfl⟩

end ranks

end Verif.Sim
