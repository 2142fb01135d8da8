import Verif.Sim.Cloud
import Verif.Sim.Gravity

/-!
# C92: particles on all ranks

Model of what `DyabloTimeLoop.h` L676-707 does with particles on ranks: projection on the mesh, gravity, move, distribution.
Every rank has a list of particles; kernels work on the octants and ghosts that the rank stores. Arithmetic is exact.
-/

namespace Verif.Sim

open Verif.Octree Verif.Cells Verif.Adapt Verif.Flux Verif.Gravity Verif.Run Verif.Particles
open Verif.Partition (InLayers Within lightIntervals scanIntervals posMorton within_face Distributed
  C07_owner_of_position_partial)

variable {d P : ℕ}

/-! ### Model -/

/-- A particle with the attributes that the kernels use. -/
structure Part (d : ℕ) where
  pos : Fin d → ℚ
  vel : Fin d → ℚ
  mass : ℚ

/-- Nearest grid point or cloud in cell: the plugins `ParticleUpdate_NGP_*` and `ParticleUpdate_CIC_*`. -/
inductive Cloud
  | ngp
  | cic

/-- The additions that the projection kernels make for a particle (`ParticleUpdate_NGP_density.cpp` L47-55,
`ParticleUpdate_CIC_density.cpp` L55-121), on the octants `M`. -/
def deposit (k : Cloud) (C : Poisson d) (L : ℕ) (M : Finset (Oct d)) (p : Part d) : Option (List (CellIndex d × ℚ)) :=
  match k with
  | .ngp => ngp C.dom C.grid M C.grid.lmin L C.blk ⟨p.pos, p.mass⟩
  | .cic => cic C.dom C.grid M C.grid.lmin L C.blk ⟨p.pos, p.mass⟩

/-- `GhostCommunicator_partial_blocks::reduce_ghosts` (`GhostCommunicator_partial_blocks.h` L112-180, C58): ranks send
the cells of their ghosts in `gc` layers at the faces of the mask to the owner, which adds them. -/
def reduceLayers [NeZero P] (s : Ranks d P) (blk : Fin d → ℕ) (gc : ℕ) (F : RFld d P ℚ) : RFld d P ℚ := fun r o x =>
  if o ∈ s.octs r then
    F r o x + ∑ q, if o ∈ s.ghost q ∧ InLayers blk gc (s.faces q o) x then F q o x else 0
  else F r o x

/-- The projection on all ranks: `rho_g` is new, hence 0 in all cells (`UserData_fields.h` L107-121); `rho` is copied to
the cells of the octants of the rank; the additions of the particles of the rank follow in the order in which the
threads make them; only the cloud in cell plugin reduces ghosts (`ParticleUpdate_CIC_density.cpp` L124-126). `none` is
undefined behaviour. -/
def depositRanks [NeZero P] (k : Cloud) (C : Poisson d) (L : ℕ) (s : Ranks d P)
    (order : Fin P → List (CellIndex d × ℚ) → List (CellIndex d × ℚ)) (rho : RFld d P ℚ) (ps : Fin P → List (Part d)) :
    Option (RFld d P ℚ) :=
  if ∀ r, ∀ p ∈ ps r, (deposit k C L (rankMap s r) p).isSome then
    let rhoG : RFld d P ℚ := fun r => project (fun o x => if o ∈ s.octs r then rho r o x else 0)
      (order r ((ps r).flatMap fun p => (deposit k C L (rankMap s r) p).getD []))
    some (match k with
      | .ngp => rhoG
      | .cic => reduceLayers s C.blk 1 rhoG)
  else none

/-- The move kernels (`ParticleUpdate_NGP_move.cpp` L47-66, `ParticleUpdate_CIC_move.cpp` L61-133) for a particle. -/
def advance (k : Cloud) (C : Poisson 3) (L : ℕ) (M : Finset (Oct 3)) (g : Oct 3 → (Fin 3 → ℕ) → Fin 3 → ℚ) (dt : ℚ)
    (p : Part 3) : Option (Part 3) :=
  (match k with
    | .ngp => ngpMove C.dom C.grid M C.grid.lmin L C.blk (fun j o x => g o x j) dt ⟨p.pos, p.vel⟩
    | .cic => cicMove C.dom C.grid M C.grid.lmin L C.blk (fun j o x => g o x j) dt ⟨p.pos, p.vel⟩).map
      fun q : Body 3 => ⟨q.pos, q.vel, p.mass⟩

/-- One computation per rank: undefined if it is undefined on one of them. -/
def onRanks {T : Type} [Inhabited T] (f : Fin P → Option T) : Option (Fin P → T) :=
  if ∀ r, (f r).isSome then some fun r => (f r).getD default else none

/-- `DyabloTimeLoop.h` L694 and L705: exchange of `gc` layers of the accelerations, move of the particles of all ranks. -/
def moveRanks [NeZero P] (k : Cloud) (C : Poisson 3) (L : ℕ) (s : Ranks 3 P) (gc : ℕ) (dt : ℚ)
    (g : Fin P → Oct 3 → (Fin 3 → ℕ) → Fin 3 → ℚ) (ps : Fin P → List (Part 3)) : Option (Fin P → List (Part 3)) :=
  onRanks fun r => (ps r).mapM (advance k C L (rankMap s r) (exchangeLayers s C.blk gc g r) dt)

/-- `getDomainFromPos` (`LightOctree_hashmap.h` L309-345) of the position of a particle, for the intervals `J`. -/
def domainOf (D : Domain d) (G : Grid d) (e L P : ℕ) (J : ℕ → ℕ) (p : Part d) : ℤ :=
  scanIntervals J P (posMorton e L G (unit D p.pos))

/-- `ForeachParticle::distribute` (`ForeachParticle.h` L59-105): every particle is sent to the rank of its position. A rank
gets its particles ordered by the rank they come from (C22). Ranks without octants and targets that are not ranks are
undefined behaviour. -/
def distributeRanks (D : Domain d) (G : Grid d) (e L : ℕ) (s : Ranks d P) (ps : Fin P → List (Part d)) :
    Option (Fin P → List (Part d)) :=
  if ∀ i < P + 1, (lightIntervals e L G (List.ofFn s.octs) i).isSome then
    let J := fun i => (lightIntervals e L G (List.ofFn s.octs) i).getD 0
    if ∀ r, ∀ p ∈ ps r, 0 ≤ domainOf D G e L P J p ∧ domainOf D G e L P J p < P then
      some fun r => (List.ofFn ps).flatten.filter fun p => decide (domainOf D G e L P J p = (r : ℕ))
    else none
  else none

/-- `DyabloTimeLoop.h` L676-707: projection, gravity with the projected density (L683), move, distribution. -/
def particleCycle [NeZero P] (k k' : Cloud) (C : Poisson 3) (e L : ℕ) (s : Ranks 3 P) (gc : ℕ) (eps : ℚ) (n : ℕ)
    (source : ℚ → Fld 3 ℚ → Fld 3 ℚ) (dt : ℚ)
    (order : Fin P → List (CellIndex 3 × ℚ) → List (CellIndex 3 × ℚ)) (rho gphi : RFld 3 P ℚ)
    (g : Fin P → Oct 3 → (Fin 3 → ℕ) → Fin 3 → ℚ) (old : CGRanks 3 P ℚ) (ps : Fin P → List (Part 3)) :
    Option (RFld 3 P ℚ × (Fin P → Oct 3 → (Fin 3 → ℕ) → Fin 3 → ℚ) × (Fin P → List (Part 3))) :=
  (depositRanks k C L s order rho ps).bind fun rhoG =>
    (updateGravity C s gc eps n source rhoG gphi g old).bind fun u =>
      (moveRanks k' C L s gc dt u.2 ps).bind fun ps' =>
        (distributeRanks C.dom C.grid e L s ps').map fun ps'' => (u.1, u.2, ps'')

/-! ### Specification -/

/-- All particles. -/
def allParts (ps : Fin P → List (Part d)) : List (Part d) := (List.ofFn ps).flatten

/-- Particles are in the domain, on the rank that holds the octant they are in. -/
def Placed (D : Domain d) (G : Grid d) (s : Ranks d P) (ps : Fin P → List (Part d)) : Prop :=
  ∀ r, ∀ p ∈ ps r, InBox D p.pos ∧ ∃ o ∈ s.octs r, Covers G o (unit D p.pos)

/-- What a particle adds to the density of a cell on the whole mesh. -/
def gained (k : Cloud) (C : Poisson d) (L : ℕ) (M : Finset (Oct d)) (p : Part d) (o : Oct d) (x : Fin d → ℕ) : ℚ :=
  (((deposit k C L M p).getD []).map fun w => if w.1.oct = o ∧ w.1.idx = x then w.2 else 0).sum

/-- The density on the whole mesh with the contributions of all particles. -/
def globalDeposit (k : Cloud) (C : Poisson d) (L : ℕ) (M : Finset (Oct d)) (rho : Fld d ℚ) (ps : List (Part d)) :
    Option (Fld d ℚ) :=
  if ∀ p ∈ ps, (deposit k C L M p).isSome then
    some fun o x => rho o x + (ps.map fun p => gained k C L M p o x).sum
  else none

/-- The particles moved on the whole mesh. -/
def globalMove (k : Cloud) (C : Poisson 3) (L : ℕ) (M : Finset (Oct 3)) (g : Oct 3 → (Fin 3 → ℕ) → Fin 3 → ℚ) (dt : ℚ)
    (ps : List (Part 3)) : Option (List (Part 3)) := ps.mapM (advance k C L M g dt)

/-- The cycle on the whole mesh. -/
def globalCycle (k k' : Cloud) (C : Poisson 3) (L : ℕ) (M : Finset (Oct 3)) (eps : ℚ) (n : ℕ)
    (source : ℚ → Fld 3 ℚ → Fld 3 ℚ) (dt : ℚ) (rho gphi : Fld 3 ℚ) (ps : List (Part 3)) :
    Option (Fld 3 ℚ × (Oct 3 → (Fin 3 → ℕ) → Fin 3 → Option ℚ) × List (Part 3)) :=
  (globalDeposit k C L M rho ps).bind fun rhoG =>
    (globalGravity C M eps n source rhoG gphi).bind fun v =>
      (globalMove k' C L M (fun o x j => (v.2 o x j).getD 0) dt ps).map fun ps' => (v.1, v.2, ps')

/-! ### Projection -/

theorem project_sum (ws : List (CellIndex d × ℚ)) (rho : Fld d ℚ) (o : Oct d) (x : Fin d → ℕ) :
    project rho ws o x = rho o x + (ws.map fun w => if w.1.oct = o ∧ w.1.idx = x then w.2 else 0).sum := by
  unfold project
  induction ws generalizing rho with
  | nil => simp
  | cons w ws ih =>
    rw [List.foldl_cons, ih, List.map_cons, List.sum_cons]
    unfold addTo
    split <;> ring

theorem sum_allParts (ps : Fin P → List (Part d)) (f : Part d → ℚ) :
    ((allParts ps).map f).sum = ∑ r, ((ps r).map f).sum := by
  unfold allParts
  rw [List.map_flatten, List.sum_flatten, List.map_map, List.map_ofFn, List.sum_ofFn]
  rfl

theorem mem_allParts {ps : Fin P → List (Part d)} {p : Part d} : p ∈ allParts ps ↔ ∃ r, p ∈ ps r := by
  unfold allParts
  rw [List.mem_flatten]
  constructor
  · rintro ⟨l, hl, hp⟩
    obtain ⟨r, rfl⟩ := List.mem_ofFn.1 hl
    exact ⟨r, hp⟩
  · rintro ⟨r, hp⟩
    exact ⟨_, List.mem_ofFn.2 ⟨r, rfl⟩, hp⟩

section
variable [NeZero P] {e L : ℕ} {C : Poisson d} {s : Ranks d P} (hG : C.grid.WF) (hs : Good e L C.grid s)
  (hD : Domain.Ok C.dom) (hb0 : ∀ k, 0 < C.blk k) (hb : ∀ k, 2 ∣ C.blk k)
include hG hs hD hb0 hb

/-- The additions for a particle on its rank are those on the mesh; they go to cells of the rank or to cells of its
ghosts that are sent back. -/
theorem deposit_same (k : Cloud) {r : Fin P} {p : Part d} (hp : InBox C.dom p.pos)
    (ho : ∃ o ∈ s.octs r, Covers C.grid o (unit C.dom p.pos)) :
    deposit k C L (rankMap s r) p = deposit k C L s.mesh p ∧
      ∀ ws, deposit k C L s.mesh p = some ws → ∀ w ∈ ws, w.1.oct ∈ s.octs r ∨
        k = .cic ∧ w.1.oct ∈ s.ghost r ∧ InLayers C.blk 1 (s.faces r w.1.oct) w.1.idx := by
  obtain ⟨o, ho, hcov⟩ := ho
  have ha := around hG hs ho
  cases k with
  | ngp =>
    obtain ⟨h1, h2⟩ := ngp_congr (q := ⟨p.pos, p.mass⟩) ha hD hs.levels hb0 hp hcov
    refine ⟨h1, fun ws hw w hm => Or.inl ?_⟩
    rw [h2 ws hw w hm]
    exact ho
  | cic =>
    obtain ⟨h1, h2⟩ := cic_congr (q := ⟨p.pos, p.mass⟩) ha hD hs.levels hb0 hb hp hcov
    refine ⟨h1, fun ws hw w hm => ?_⟩
    obtain ⟨g1, g2, g3⟩ := h2 ws hw w hm
    by_cases hown : owner s.octs w.1.oct = r
    · left
      rw [← hown]
      exact owner_mem _ g1
    · right
      have hgh : w.1.oct ∈ s.ghost r := (hs.ghosts r _).2 ⟨g1, hown, o, ho, Within.touch g3⟩
      have hne : o ≠ w.1.oct := by
        intro h
        exact hown (by rw [← h]; exact owner_eq hs ho)
      obtain ⟨off, h0, hadj, f, hf, hl⟩ := within_face hG.toPos hs.tiling hb0 (mem_mesh ho) g1 hne g3
      refine ⟨rfl, hgh, f, hs.faces r _ hgh o ho off h0 hadj f hf, ?_⟩
      revert hl
      split <;> intro hl <;> omega

/-- The density after the projection. -/
theorem deposit_ranks (k : Cloud) {order : Fin P → List (CellIndex d × ℚ) → List (CellIndex d × ℚ)}
    (hord : ∀ r l, (order r l).Perm l) {rho : RFld d P ℚ} {grho : Fld d ℚ} (hrho : Own s C.blk rho grho)
    {ps : Fin P → List (Part d)} (hp : Placed C.dom C.grid s ps) :
    Both (Own s C.blk) (depositRanks k C L s order rho ps) (globalDeposit k C L s.mesh grho (allParts ps)) := by
  have key : ∀ r, ∀ p ∈ ps r, _ := fun r p hm => deposit_same hG hs hD hb0 hb k (hp r p hm).1 (hp r p hm).2
  unfold depositRanks globalDeposit
  by_cases hdef : ∀ p ∈ allParts ps, (deposit k C L s.mesh p).isSome
  · rw [if_pos hdef, if_pos fun r p hm => by rw [(key r p hm).1]; exact hdef p (mem_allParts.2 ⟨r, hm⟩)]
    refine Or.inl ⟨_, _, rfl, rfl, fun r o ho x hx => ?_⟩
    set S : Fin P → ℚ := fun q => ((ps q).map fun p => gained k C L s.mesh p o x).sum with hS
    set rhoG : RFld d P ℚ := fun r => project (fun o x => if o ∈ s.octs r then rho r o x else 0)
      (order r ((ps r).flatMap fun p => (deposit k C L (rankMap s r) p).getD [])) with hrG
    have hval : ∀ q, rhoG q o x = (if o ∈ s.octs q then rho q o x else 0) + S q := by
      intro q
      rw [hrG]
      simp only
      rw [project_sum, ((hord q _).map _).sum_eq, List.map_flatMap, List.flatMap_def, List.sum_flatten, List.map_map]
      congr 2
      refine List.map_congr_left fun p hm => ?_
      simp only [Function.comp_apply]
      rw [(key q p hm).1]
      rfl
    have hzero : ∀ q, q ≠ r → ¬ (k = .cic ∧ o ∈ s.ghost q ∧ InLayers C.blk 1 (s.faces q o) x) → S q = 0 := by
      intro q hq hn
      apply List.sum_eq_zero
      intro a ha
      obtain ⟨p, hm, rfl⟩ := List.mem_map.1 ha
      unfold gained
      apply List.sum_eq_zero
      intro a ha
      obtain ⟨w, hw, rfl⟩ := List.mem_map.1 ha
      split
      · next h =>
        exfalso
        cases hdp : deposit k C L s.mesh p with
        | none => rw [hdp] at hw; cases hw
        | some ws =>
          rw [hdp] at hw
          rcases (key q p hm).2 ws hdp w hw with g | g
          · rw [h.1] at g
            exact hq (hs.rank_unique g ho)
          · rw [h.1, h.2] at g
            exact hn g
      · rfl
    rw [sum_allParts]
    have hr := hrho r o ho x hx
    cases k with
    | ngp =>
      show rhoG r o x = _
      rw [hval r, if_pos ho, hr, Finset.sum_eq_single r]
      · intro q _ hq
        exact hzero q hq fun h => by cases h.1
      · intro h; exact absurd (Finset.mem_univ r) h
    | cic =>
      show reduceLayers s C.blk 1 rhoG r o x = _
      unfold reduceLayers
      rw [if_pos ho, hval r, if_pos ho, hr, add_assoc]
      congr 1
      have hgr : o ∉ s.ghost r := fun h => ((hs.ghosts r o).1 h).2.1 (owner_eq hs ho)
      rw [← Finset.add_sum_erase _ _ (Finset.mem_univ r), if_neg fun h => hgr h.1, zero_add]
      show _ = ∑ q, S q
      rw [← Finset.add_sum_erase _ S (Finset.mem_univ r)]
      congr 1
      refine Finset.sum_congr rfl fun q hq => ?_
      have hq := Finset.ne_of_mem_erase hq
      split
      · next h => rw [hval q, if_neg fun h' => hq (hs.rank_unique h' ho), zero_add]
      · next h => exact (hzero q hq fun g => h g.2).symm
  · rw [if_neg hdef, if_neg]
    · exact Or.inr ⟨rfl, rfl⟩
    · intro h
      apply hdef
      intro p hm
      obtain ⟨r, hm⟩ := mem_allParts.1 hm
      rw [← (key r p hm).1]
      exact h r p hm

end

/-! ### Move -/

theorem mapM_append {α β : Type} (f : α → Option β) (l l' : List α) :
    (l ++ l').mapM f = (l.mapM f).bind fun a => (l'.mapM f).map fun c => a ++ c := by
  induction l with
  | nil => cases h : l'.mapM f <;> simp [h]
  | cons a l ih =>
    rw [List.cons_append, List.mapM_cons, List.mapM_cons, ih]
    cases f a with
    | none => rfl
    | some y => cases l.mapM f with
      | none => rfl
      | some ys => cases l'.mapM f <;> rfl

theorem mapM_flatten {α β : Type} (f : α → Option β) (ls : List (List α)) :
    ls.flatten.mapM f = (ls.mapM fun l : List α => l.mapM f).map List.flatten := by
  induction ls with
  | nil => rfl
  | cons l ls ih =>
    rw [List.flatten_cons, mapM_append, ih, List.mapM_cons]
    cases l.mapM f with
    | none => rfl
    | some ys => cases ls.mapM (fun l : List α => l.mapM f) <;> rfl

theorem mapM_ofFn {β : Type} [Inhabited β] (f : Fin P → Option β) :
    (List.ofFn f).mapM id = (onRanks f).map List.ofFn := by
  unfold onRanks
  by_cases h : ∀ r, (f r).isSome
  · rw [if_pos h]
    have : List.ofFn f = (List.ofFn fun r => (f r).getD default).map some := by
      rw [List.map_ofFn]
      congr 1
      funext r
      obtain ⟨y, hy⟩ := Option.isSome_iff_exists.1 (h r)
      simp [hy]
    rw [this, mapM_id_some]
    rfl
  · rw [if_neg h]
    cases hm : (List.ofFn f).mapM id with
    | none => rfl
    | some ys =>
      exfalso
      apply h
      intro r
      have h1 := mapM_eq_some.1 hm
      have h2 : f r ∈ (List.ofFn f).map id := by rw [List.map_id]; exact List.mem_ofFn.2 ⟨r, rfl⟩
      rw [h1] at h2
      obtain ⟨y, -, hy⟩ := List.mem_map.1 h2
      rw [← hy]; rfl


theorem mapM_allParts (f : Part d → Option (Part d)) (ps : Fin P → List (Part d)) :
    (allParts ps).mapM f = (onRanks fun r => (ps r).mapM f).map fun ps' => allParts ps' := by
  unfold allParts
  rw [mapM_flatten]
  have h1 : (List.ofFn ps).mapM (fun l : List (Part d) => l.mapM f) = (List.ofFn fun r => (ps r).mapM f).mapM id := by
    have h2 : (List.ofFn fun r => (ps r).mapM f) = (List.ofFn ps).map fun l : List (Part d) => l.mapM f := by
      rw [List.map_ofFn]
      rfl
    rw [h2, List.mapM_map]
    exact mapM_congr fun _ _ => rfl
  rw [h1, mapM_ofFn, Option.map_map]
  rfl

/-- The move of a particle whose octant the rank holds. -/
theorem advance_congr {L : ℕ} {C : Poisson 3} {M Mr : Finset (Oct 3)} {o : Oct 3} (h : Around C.grid M Mr o)
    (hD : Domain.Ok C.dom) (hlev : ∀ c ∈ M, C.grid.lmin ≤ c.level ∧ c.level ≤ L) (hb0 : ∀ k, 0 < C.blk k)
    (hb : ∀ k, 2 ∣ C.blk k) (k : Cloud) {g gg : Oct 3 → (Fin 3 → ℕ) → Fin 3 → ℚ}
    (hg : ∀ j, AgreeWithin C.grid C.blk 1 M o (fun o x => g o x j) fun o x => gg o x j) (dt : ℚ) {p : Part 3}
    (hq : InBox C.dom p.pos) (hcov : Covers C.grid o (unit C.dom p.pos)) :
    advance k C L Mr g dt p = advance k C L M gg dt p := by
  unfold advance
  cases k with
  | ngp =>
    have := ngpMove_congr (q := ⟨p.pos, p.vel⟩) h hD hlev hb0 (u := fun j o x => g o x j) (v := fun j o x => gg o x j)
      hg dt hq hcov
    simp only [this]
  | cic =>
    have := cicMove_congr (q := ⟨p.pos, p.vel⟩) h hD hlev hb0 hb (u := fun j o x => g o x j) (v := fun j o x => gg o x j)
      hg dt hq hcov
    simp only [this]

section
variable [NeZero P] {e L : ℕ} {C : Poisson 3} {s : Ranks 3 P} (hG : C.grid.WF) (hs : Good e L C.grid s)
  (hD : Domain.Ok C.dom) (hb0 : ∀ k, 0 < C.blk k) (hb : ∀ k, 2 ∣ C.blk k)
include hG hs hD hb0 hb

/-- The moved particles. -/
theorem move_ranks (k : Cloud) {gc : ℕ} (hgc : 1 ≤ gc) (dt : ℚ) {g : Fin P → Oct 3 → (Fin 3 → ℕ) → Fin 3 → ℚ}
    {gg : Oct 3 → (Fin 3 → ℕ) → Fin 3 → ℚ} (hg : Own s C.blk g gg) {ps : Fin P → List (Part 3)}
    (hp : Placed C.dom C.grid s ps) :
    Both (fun ps' l => allParts ps' = l) (moveRanks k C L s gc dt g ps) (globalMove k C L s.mesh gg dt (allParts ps)) := by
  have key : ∀ r, (ps r).mapM (advance k C L (rankMap s r) (exchangeLayers s C.blk gc g r) dt) =
      (ps r).mapM (advance k C L s.mesh gg dt) := by
    intro r
    refine mapM_congr fun p hm => ?_
    obtain ⟨hq, o, ho, hcov⟩ := hp r p hm
    have ha := around hG hs ho
    have hag : ∀ j, AgreeWithin C.grid C.blk 1 s.mesh o (fun o x => exchangeLayers s C.blk gc g r o x j)
        fun o x => gg o x j := by
      refine fun j => ⟨fun x hx => ?_, fun o' ho' x hx hw => ?_⟩
      · simp only
        rw [hg.exchange hs gc r o ho x hx]
      · simp only
        rw [exchangeLayers_within hG hs g ho hgc (ha.complete o' ho' (Within.touch hw)) hx hw,
          hg _ o' (owner_mem _ ho') x hx]
    exact advance_congr ha hD hs.levels hb0 hb k hag dt hq hcov
  have e1 : moveRanks k C L s gc dt g ps = onRanks fun r => (ps r).mapM (advance k C L s.mesh gg dt) := by
    unfold moveRanks
    congr 1
    funext r
    exact key r
  have e2 : globalMove k C L s.mesh gg dt (allParts ps) =
      (onRanks fun r => (ps r).mapM (advance k C L s.mesh gg dt)).map fun ps' => allParts ps' := mapM_allParts _ ps
  rw [e1, e2]
  cases onRanks fun r => (ps r).mapM (advance k C L s.mesh gg dt) with
  | none => exact Or.inr ⟨rfl, rfl⟩
  | some ps' => exact Or.inl ⟨ps', _, rfl, rfl, rfl⟩

end

/-! ### Distribution -/

/-- Sorting a list by rank neither adds nor removes entries. -/
theorem perm_by_rank {α : Type} (l : List α) (f : α → ℤ) (hf : ∀ a ∈ l, 0 ≤ f a ∧ f a < P) :
    ((List.ofFn fun r : Fin P => l.filter fun a => decide (f a = (r : ℕ))).flatten).Perm l := by
  classical
  rw [List.perm_iff_count]
  intro a
  rw [List.count_flatten, List.map_ofFn, List.sum_ofFn]
  by_cases ha : a ∈ l
  · obtain ⟨h0, h1⟩ := hf a ha
    have hr : (f a).toNat < P := by omega
    rw [Finset.sum_eq_single ⟨(f a).toNat, hr⟩]
    · simp only [Function.comp_apply]
      rw [List.count_filter]
      simp only [decide_eq_true_eq]
      omega
    · intro r _ hne
      simp only [Function.comp_apply]
      rw [List.count_eq_zero]
      intro hm
      have h2 := (List.mem_filter.1 hm).2
      simp only [decide_eq_true_eq] at h2
      exact hne (Fin.ext (by simp only; omega))
    · intro h; exact absurd (Finset.mem_univ _) h
  · rw [List.count_eq_zero.2 ha]
    refine Finset.sum_eq_zero fun r _ => ?_
    simp only [Function.comp_apply]
    rw [List.count_eq_zero]
    exact fun hm => ha (List.mem_filter.1 hm).1

theorem distribute_ranks [NeZero P] {e L : ℕ} {D : Domain d} {G : Grid d} {s : Ranks d P} (hG : G.WF)
    (hs : Good e L G s) (hfull : ∀ i, G.coarse i = 2 ^ G.lmin) (hde : d ≤ e) (h64 : e * L < 64) (hD : Domain.Ok D)
    {ps : Fin P → List (Part d)} (hp : ∀ p ∈ allParts ps, InBox D p.pos) :
    ∃ ps', distributeRanks D G e L s ps = some ps' ∧ (allParts ps').Perm (allParts ps) ∧ Placed D G s ps' := by
  have hlen : (List.ofFn s.octs).length = P := by simp
  have hne : ∀ l ∈ List.ofFn s.octs, l ≠ [] := by
    intro l hl
    obtain ⟨r, rfl⟩ := List.mem_ofFn.1 hl
    exact hs.nonempty r
  have hdef : ∀ i < P + 1, (lightIntervals e L G (List.ofFn s.octs) i).isSome := by
    intro i _
    unfold lightIntervals
    split
    · next h =>
      rw [Option.isSome_map, List.isSome_head?]
      simpa using hne _ (List.getElem_mem h)
    · rfl
  set J := fun i => (lightIntervals e L G (List.ofFn s.octs) i).getD 0 with hJ
  have hdom : ∀ p ∈ allParts ps, ∃ r : Fin P, domainOf D G e L P J p = (r : ℕ) ∧
      ∃ a ∈ s.octs r, Covers G a (unit D p.pos) := by
    intro p hm
    obtain ⟨r, hr, h1, a, ha, hc⟩ := C07_owner_of_position_partial hG hfull hs.tiling hde (fun o ho => (hs.levels o ho).2) h64
      hs.distributed hne J (fun i hi => by
        rw [hlen] at hi
        obtain ⟨y, hy⟩ := Option.isSome_iff_exists.1 (hdef i (by omega))
        rw [hJ, hy]
        simp only
        rw [hy]
        rfl) (unit D p.pos) (unit_bounds hD (hp p hm))
    rw [hlen] at hr h1
    refine ⟨⟨r, hr⟩, h1, a, ?_, hc⟩
    simpa using ha
  unfold distributeRanks
  rw [if_pos hdef]
  simp only
  rw [if_pos]
  · refine ⟨_, rfl, ?_, ?_⟩
    · unfold allParts
      refine perm_by_rank _ _ fun p hm => ?_
      obtain ⟨r, h1, -⟩ := hdom p hm
      rw [h1]
      have := r.2
      omega
    · intro r p hm
      obtain ⟨hm, h2⟩ := List.mem_filter.1 hm
      obtain ⟨q, h1, h3⟩ := hdom p hm
      refine ⟨hp p hm, ?_⟩
      have : q = r := by
        apply Fin.ext
        have h4 := of_decide_eq_true h2
        rw [h1] at h4
        exact_mod_cast h4
      rw [← this]
      exact h3
  · intro r p hm
    obtain ⟨q, h1, -⟩ := hdom p (mem_allParts.2 ⟨r, hm⟩)
    rw [h1]
    have := q.2
    omega

/-! ### The cycle -/

section
variable [NeZero P] {e L : ℕ} {C : Poisson 3} {s : Ranks 3 P} (hG : C.grid.WF) (hs : Good e L C.grid s)
  (hD : Domain.Ok C.dom) (hb0 : ∀ k, 0 < C.blk k) (hb : ∀ k, 2 ∣ C.blk k)
include hG hs hD hb0 hb

theorem cycle_ranks (hfull : ∀ i, C.grid.coarse i = 2 ^ C.grid.lmin) (hde : 3 ≤ e) (h64 : e * L < 64) (k k' : Cloud)
    {gc : ℕ} (hgc : 1 ≤ gc) (eps : ℚ) (n : ℕ) {source : ℚ → Fld 3 ℚ → Fld 3 ℚ}
    (hsrc : ∀ m (u v : Fld 3 ℚ) o x, u o x = v o x → source m u o x = source m v o x) (dt : ℚ)
    {order : Fin P → List (CellIndex 3 × ℚ) → List (CellIndex 3 × ℚ)} (hord : ∀ r l, (order r l).Perm l)
    {rho gphi : RFld 3 P ℚ} {grho ggphi : Fld 3 ℚ} (hrho : Own s C.blk rho grho) (hphi : Own s C.blk gphi ggphi)
    (g : Fin P → Oct 3 → (Fin 3 → ℕ) → Fin 3 → ℚ) (old : CGRanks 3 P ℚ) {ps : Fin P → List (Part 3)}
    (hp : Placed C.dom C.grid s ps)
    (hbox : ∀ v, globalCycle k k' C L s.mesh eps n source dt grho ggphi (allParts ps) = some v →
      ∀ p ∈ v.2.2, InBox C.dom p.pos) :
    Both (fun u v => SameGravity s C.blk (u.1, u.2.1) (v.1, v.2.1) ∧ (allParts u.2.2).Perm v.2.2 ∧
        Placed C.dom C.grid s u.2.2)
      (particleCycle k k' C e L s gc eps n source dt order rho gphi g old ps)
      (globalCycle k k' C L s.mesh eps n source dt grho ggphi (allParts ps)) := by
  unfold particleCycle globalCycle
  unfold globalCycle at hbox
  rcases deposit_ranks hG hs hD hb0 hb k hord hrho hp with ⟨a, c, e1, e2, h1⟩ | ⟨e1, e2⟩
  swap
  · rw [e1, e2]; exact Or.inr ⟨rfl, rfl⟩
  rw [e1, e2, Option.bind_some, Option.bind_some]
  rw [e2, Option.bind_some] at hbox
  rcases gravity_same hG hs hgc eps n hsrc h1 hphi g old with ⟨u, v, f1, f2, h2⟩ | ⟨f1, f2⟩
  swap
  · rw [f1, f2]; exact Or.inr ⟨rfl, rfl⟩
  rw [f1, f2, Option.bind_some, Option.bind_some]
  rw [f2, Option.bind_some] at hbox
  have hown : Own s C.blk u.2 fun o x j => (v.2 o x j).getD 0 := fun r o ho x hx => by
    have := h2.2 r o ho x hx
    funext j
    show u.2 r o x j = (v.2 o x j).getD 0
    rw [← congrFun this j]
    rfl
  rcases move_ranks hG hs hD hb0 hb k' hgc dt hown hp with ⟨ps', l, g1, g2, rfl⟩ | ⟨g1, g2⟩
  swap
  · rw [g1, g2]; exact Or.inr ⟨rfl, rfl⟩
  rw [g1, g2, Option.bind_some, Option.map_some]
  rw [g2, Option.map_some] at hbox
  obtain ⟨ps'', h3, h4, h5⟩ := distribute_ranks hG hs hfull hde h64 hD (hbox _ rfl)
  rw [h3, Option.map_some]
  exact Or.inl ⟨_, _, rfl, rfl, h2, h4, h5⟩

end

/-! ### The order of the particles -/

theorem mapM_perm {α β : Type} (f : α → Option β) {l l' : List α} (h : l.Perm l') :
    Both List.Perm (l.mapM f) (l'.mapM f) := by
  induction h with
  | nil => exact Or.inl ⟨_, _, rfl, rfl, List.Perm.refl _⟩
  | cons a _ ih =>
    rw [List.mapM_cons, List.mapM_cons]
    cases f a with
    | none => exact Or.inr ⟨rfl, rfl⟩
    | some y =>
      rcases ih with ⟨u, v, h1, h2, h3⟩ | ⟨h1, h2⟩ <;> rw [h1, h2]
      · exact Or.inl ⟨_, _, rfl, rfl, h3.cons y⟩
      · exact Or.inr ⟨rfl, rfl⟩
  | swap a c l =>
    rw [List.mapM_cons, List.mapM_cons, List.mapM_cons, List.mapM_cons]
    cases f a <;> cases f c <;> cases l.mapM f <;> first | exact Or.inr ⟨rfl, rfl⟩ | exact Or.inl ⟨_, _, rfl, rfl, List.Perm.swap _ _ _⟩
  | trans _ _ ih ih' =>
    rcases ih with ⟨u, v, h1, h2, h3⟩ | ⟨h1, h2⟩ <;> rcases ih' with ⟨u', v', k1, k2, k3⟩ | ⟨k1, k2⟩
    · rw [h2] at k1
      cases k1
      exact Or.inl ⟨_, _, h1, k2, h3.trans k3⟩
    · rw [h2] at k1; cases k1
    · rw [h2] at k1; cases k1
    · exact Or.inr ⟨h1, k2⟩

theorem globalDeposit_perm (k : Cloud) (C : Poisson d) (L : ℕ) (M : Finset (Oct d)) (rho : Fld d ℚ) {ps ps' : List (Part d)}
    (h : ps.Perm ps') : globalDeposit k C L M rho ps = globalDeposit k C L M rho ps' := by
  unfold globalDeposit
  have e1 : (∀ p ∈ ps, (deposit k C L M p).isSome) ↔ ∀ p ∈ ps', (deposit k C L M p).isSome :=
    forall_congr' fun p => by rw [h.mem_iff]
  by_cases hd : ∀ p ∈ ps, (deposit k C L M p).isSome
  · rw [if_pos hd, if_pos (e1.1 hd)]
    congr 1
    funext o x
    rw [(h.map _).sum_eq]
  · rw [if_neg hd, if_neg fun h => hd (e1.2 h)]

theorem globalCycle_perm (k k' : Cloud) (C : Poisson 3) (L : ℕ) (M : Finset (Oct 3)) (eps : ℚ) (n : ℕ)
    (source : ℚ → Fld 3 ℚ → Fld 3 ℚ) (dt : ℚ) (rho gphi : Fld 3 ℚ) {ps ps' : List (Part 3)} (h : ps.Perm ps') :
    Both (fun v v' => v.1 = v'.1 ∧ v.2.1 = v'.2.1 ∧ v.2.2.Perm v'.2.2) (globalCycle k k' C L M eps n source dt rho gphi ps)
      (globalCycle k k' C L M eps n source dt rho gphi ps') := by
  unfold globalCycle
  rw [globalDeposit_perm k C L M rho h]
  cases globalDeposit k C L M rho ps' with
  | none => exact Or.inr ⟨rfl, rfl⟩
  | some rhoG =>
    rw [Option.bind_some, Option.bind_some]
    cases globalGravity C M eps n source rhoG gphi with
    | none => exact Or.inr ⟨rfl, rfl⟩
    | some v =>
      rw [Option.bind_some, Option.bind_some]
      unfold globalMove
      rcases mapM_perm (advance k' C L M (fun o x j => (v.2 o x j).getD 0) dt) h with ⟨u, u', h1, h2, h3⟩ | ⟨h1, h2⟩ <;>
        rw [h1, h2]
      · exact Or.inl ⟨_, _, rfl, rfl, rfl, rfl, h3⟩
      · exact Or.inr ⟨rfl, rfl⟩

end Verif.Sim
