import Verif.Sim.CloudRanks
import Verif.Sim.GravityProps

/-!
# C92: particles do not depend on the ranks
-/

namespace Verif.Sim

open Verif.Octree Verif.Cells Verif.Adapt Verif.Flux Verif.Gravity Verif.Run Verif.Particles

section
variable {d P : ℕ} [NeZero P] {C : Poisson d} {e L : ℕ}
  (hG : C.grid.WF) (hd : 0 < d) (hde : d ≤ e) (h64 : e * L < 64) (hL : C.grid.lmin ≤ L)
  (hT : ∏ i, C.grid.coarse i < 2 ^ 32) (hP : P ≤ ∏ i, C.grid.coarse i) (hD : Domain.Ok C.dom)
include hG hd hde h64 hL hT hP hD

/-- **C92** (projection). At any time of a run on any number of ranks, for particles on the ranks of their octants: the
density in the cells of all ranks after the projection is that of the whole mesh with the contributions of all
particles, whatever the order of the additions; it is undefined on ranks if and only if it is undefined there. -/
theorem C92_projection (hb0 : ∀ k, 0 < C.blk k) (hb : ∀ k, 2 ∣ C.blk k) {mks : List (Oct d → ℤ)} {s : Ranks d P}
    (h : Reach e L C.grid mks s) (k : Cloud) {order : Fin P → List (CellIndex d × ℚ) → List (CellIndex d × ℚ)}
    (hord : ∀ r l, (order r l).Perm l) (rho : RFld d P ℚ) {ps : Fin P → List (Part d)}
    (hp : Placed C.dom C.grid s ps) :
    Both (Own s C.blk) (depositRanks k C L s order rho ps)
      (globalDeposit k C L s.mesh (fun o => rho (owner s.octs o) o) (allParts ps)) := by
  have hs := (reach_good hG hd hde h64 hL hT hP h).1
  exact deposit_ranks hG hs hD hb0 hb k hord (fun r o ho x _ => by rw [owner_eq hs ho]) hp

/-- **C92** (distribution). On a mesh whose coarse grid is the full cube, at any time of a run: wherever the particles
are, the distribution puts each on the rank that holds the octant it is in, and none is lost or doubled. Partial: for
other coarse grids it fails, see `C92_distribution_fails`. -/
theorem C92_distribution_partial (hfull : ∀ i, C.grid.coarse i = 2 ^ C.grid.lmin) {mks : List (Oct d → ℤ)} {s : Ranks d P}
    (h : Reach e L C.grid mks s) {ps : Fin P → List (Part d)} (hp : ∀ p ∈ allParts ps, InBox C.dom p.pos) :
    ∃ ps', distributeRanks C.dom C.grid e L s ps = some ps' ∧ (allParts ps').Perm (allParts ps) ∧
      Placed C.dom C.grid s ps' :=
  distribute_ranks hG (reach_good hG hd hde h64 hL hT hP h).1 hfull hde h64 hD hp

end

section
variable {P Q : ℕ} [NeZero P] [NeZero Q] {C : Poisson 3} {e L : ℕ}
  (hG : C.grid.WF) (hde : 3 ≤ e) (h64 : e * L < 64) (hL : C.grid.lmin ≤ L)
  (hT : ∏ i, C.grid.coarse i < 2 ^ 32) (hP : P ≤ ∏ i, C.grid.coarse i) (hQ : Q ≤ ∏ i, C.grid.coarse i)
  (hD : Domain.Ok C.dom) (hb0 : ∀ k, 0 < C.blk k) (hb : ∀ k, 2 ∣ C.blk k)
include hG hde h64 hL hT hP hD hb0 hb

omit hQ in
/-- **C92** (move). At any time of a run on any number of ranks, for particles on the ranks of their octants, whatever the
ghosts contain: the particles move as on the whole mesh. -/
theorem C92_move {mks : List (Oct 3 → ℤ)} {s : Ranks 3 P} (h : Reach e L C.grid mks s) (k : Cloud) {gc : ℕ} (hgc : 1 ≤ gc)
    (dt : ℚ) (g : Fin P → Oct 3 → (Fin 3 → ℕ) → Fin 3 → ℚ) {ps : Fin P → List (Part 3)}
    (hp : Placed C.dom C.grid s ps) :
    Both (fun ps' l => allParts ps' = l) (moveRanks k C L s gc dt g ps)
      (globalMove k C L s.mesh (fun o => g (owner s.octs o) o) dt (allParts ps)) := by
  have hs := (reach_good hG (by norm_num) hde h64 hL hT hP h).1
  exact move_ranks hG hs hD hb0 hb k hgc dt (fun r o ho x _ => by rw [owner_eq hs ho]) hp

omit hQ in
/-- **C92** (cycle). Projection, gravity, move and distribution on any number of ranks: potential, accelerations and
particles are those of the same cycle on the whole mesh, and the particles are again on the ranks of their octants. The
moved particles must be in the domain (`C54_in_domain_partial`). Partial: full cubes only, see `C92_distribution_fails`. -/
theorem C92_cycle_partial (hfull : ∀ i, C.grid.coarse i = 2 ^ C.grid.lmin) {mks : List (Oct 3 → ℤ)} {s : Ranks 3 P}
    (h : Reach e L C.grid mks s) (k k' : Cloud) {gc : ℕ} (hgc : 1 ≤ gc) (eps : ℚ) (n : ℕ)
    {source : ℚ → Fld 3 ℚ → Fld 3 ℚ}
    (hsrc : ∀ m (u v : Fld 3 ℚ) o x, u o x = v o x → source m u o x = source m v o x) (dt : ℚ)
    {order : Fin P → List (CellIndex 3 × ℚ) → List (CellIndex 3 × ℚ)} (hord : ∀ r l, (order r l).Perm l)
    (rho gphi : RFld 3 P ℚ) (g : Fin P → Oct 3 → (Fin 3 → ℕ) → Fin 3 → ℚ) (old : CGRanks 3 P ℚ)
    {ps : Fin P → List (Part 3)} (hp : Placed C.dom C.grid s ps)
    (hbox : ∀ v, globalCycle k k' C L s.mesh eps n source dt (fun o => rho (owner s.octs o) o)
      (fun o => gphi (owner s.octs o) o) (allParts ps) = some v → ∀ p ∈ v.2.2, InBox C.dom p.pos) :
    Both (fun u v => SameGravity s C.blk (u.1, u.2.1) (v.1, v.2.1) ∧ (allParts u.2.2).Perm v.2.2 ∧
        Placed C.dom C.grid s u.2.2)
      (particleCycle k k' C e L s gc eps n source dt order rho gphi g old ps)
      (globalCycle k k' C L s.mesh eps n source dt (fun o => rho (owner s.octs o) o) (fun o => gphi (owner s.octs o) o)
        (allParts ps)) := by
  have hs := (reach_good hG (by norm_num) hde h64 hL hT hP h).1
  exact cycle_ranks hG hs hD hb0 hb hfull hde h64 k k' hgc eps n hsrc dt hord (fun r o ho x _ => by rw [owner_eq hs ho])
    (fun r o ho x _ => by rw [owner_eq hs ho]) g old hp hbox

include hQ in
/-- **C92.** Two runs with the same markers, on different numbers of ranks, with different load balancing, orders of
particles, orders of additions and contents of ghosts: if density and potential are equal in all cells and the particles
are the same, then so are potential, accelerations and particles after the cycle. -/
theorem C92_independent_of_ranks_partial (hfull : ∀ i, C.grid.coarse i = 2 ^ C.grid.lmin) {mks : List (Oct 3 → ℤ)}
    {s : Ranks 3 P} {t : Ranks 3 Q} (h : Reach e L C.grid mks s) (h' : Reach e L C.grid mks t) (k k' : Cloud)
    {gc gc' : ℕ} (hgc : 1 ≤ gc) (hgc' : 1 ≤ gc') (eps : ℚ) (n : ℕ) {source : ℚ → Fld 3 ℚ → Fld 3 ℚ}
    (hsrc : ∀ m (u v : Fld 3 ℚ) o x, u o x = v o x → source m u o x = source m v o x) (dt : ℚ)
    {order : Fin P → List (CellIndex 3 × ℚ) → List (CellIndex 3 × ℚ)} (hord : ∀ r l, (order r l).Perm l)
    {order' : Fin Q → List (CellIndex 3 × ℚ) → List (CellIndex 3 × ℚ)} (hord' : ∀ r l, (order' r l).Perm l)
    {rho gphi : RFld 3 P ℚ} {rho' gphi' : RFld 3 Q ℚ}
    (hrho : ∀ r q o, o ∈ s.octs r → o ∈ t.octs q → ∀ x, (∀ k, x k < C.blk k) → rho r o x = rho' q o x)
    (hphi : ∀ r q o, o ∈ s.octs r → o ∈ t.octs q → ∀ x, (∀ k, x k < C.blk k) → gphi r o x = gphi' q o x)
    (g : Fin P → Oct 3 → (Fin 3 → ℕ) → Fin 3 → ℚ) (old : CGRanks 3 P ℚ)
    (g' : Fin Q → Oct 3 → (Fin 3 → ℕ) → Fin 3 → ℚ) (old' : CGRanks 3 Q ℚ) {ps : Fin P → List (Part 3)}
    {ps' : Fin Q → List (Part 3)} (hp : Placed C.dom C.grid s ps) (hp' : Placed C.dom C.grid t ps')
    (hsame : (allParts ps).Perm (allParts ps'))
    (hbox : ∀ v, globalCycle k k' C L s.mesh eps n source dt (fun o => rho (owner s.octs o) o)
      (fun o => gphi (owner s.octs o) o) (allParts ps) = some v → ∀ p ∈ v.2.2, InBox C.dom p.pos) :
    Both (fun u u' => (∀ r q o, o ∈ s.octs r → o ∈ t.octs q → ∀ x, (∀ k, x k < C.blk k) →
        u.1 r o x = u'.1 q o x ∧ u.2.1 r o x = u'.2.1 q o x) ∧ (allParts u.2.2).Perm (allParts u'.2.2) ∧
        Placed C.dom C.grid s u.2.2 ∧ Placed C.dom C.grid t u'.2.2)
      (particleCycle k k' C e L s gc eps n source dt order rho gphi g old ps)
      (particleCycle k k' C e L t gc' eps n source dt order' rho' gphi' g' old' ps') := by
  obtain ⟨hs, ms⟩ := reach_good hG (by norm_num) hde h64 hL hT hP h
  obtain ⟨ht, mt⟩ := reach_good hG (by norm_num) hde h64 hL hT hQ h'
  have hm : s.mesh = t.mesh := ms.unique mt
  have hmem : ∀ {q o}, o ∈ t.octs q → o ∈ s.octs (owner s.octs o) := fun ho =>
    owner_mem _ (show _ ∈ s.mesh by rw [hm]; exact mem_mesh ho)
  have h1 := C92_cycle_partial hG hde h64 hL hT hP hD hb0 hb hfull h k k' hgc eps n hsrc dt hord rho gphi g old hp hbox
  have hperm := globalCycle_perm k k' C L s.mesh eps n source dt (fun o => rho (owner s.octs o) o)
    (fun o => gphi (owner s.octs o) o) hsame
  have hbox' : ∀ v, globalCycle k k' C L t.mesh eps n source dt (fun o => rho (owner s.octs o) o)
      (fun o => gphi (owner s.octs o) o) (allParts ps') = some v → ∀ p ∈ v.2.2, InBox C.dom p.pos := by
    intro v hv p hpv
    rw [← hm] at hv
    rcases hperm with ⟨w, w', e1, e2, -, -, e3⟩ | ⟨-, e2⟩
    · rw [e2] at hv
      cases hv
      exact hbox w e1 p (e3.mem_iff.2 hpv)
    · rw [e2] at hv; cases hv
  have h2 := cycle_ranks hG ht hD hb0 hb hfull hde h64 k k' hgc' eps n hsrc dt hord'
    (grho := fun o => rho (owner s.octs o) o) (ggphi := fun o => gphi (owner s.octs o) o)
    (fun q o ho x hx => (hrho _ q o (hmem ho) ho x hx).symm) (fun q o ho x hx => (hphi _ q o (hmem ho) ho x hx).symm)
    g' old' hp' hbox'
  rw [← hm] at h2
  rcases h1 with ⟨u, v, e1, e2, e3, e4, e5⟩ | ⟨e1, e2⟩ <;> rcases h2 with ⟨u', v', k1, k2, k3, k4, k5⟩ | ⟨k1, k2⟩ <;>
    rcases hperm with ⟨w, w', p1, p2, p3, p4, p5⟩ | ⟨p1, p2⟩ <;> rw [e2] at p1 <;> rw [k2] at p2 <;>
    first | (cases p1; done) | (cases p2; done) | skip
  · cases p1
    cases p2
    refine Or.inl ⟨u, u', e1, k1, fun r q o ho ho' x hx => ⟨?_, ?_⟩, e4.trans (p5.trans k4.symm), e5, k5⟩
    · have a1 := e3.1 r o ho x hx
      have a2 := k3.1 q o ho' x hx
      simp only at a1 a2
      rw [a1, a2, p3]
    · have a1 := e3.2 r o ho x hx
      have a2 := k3.2 q o ho' x hx
      simp only at a1 a2
      funext j
      have b1 := congrFun a1 j
      have b2 := congrFun a2 j
      rw [p4, ← b2] at b1
      exact Option.some.inj b1
  · exact Or.inr ⟨e1, k1⟩

end

/-! ### The cycle is defined -/

/-- A common step for a list. -/
theorem common_step {α : Type} {Q : α → ℚ → Prop} (l : List α) (h : ∀ a ∈ l, ∃ t > 0, ∀ dt, 0 ≤ dt → dt ≤ t → Q a dt) :
    ∃ t > 0, ∀ dt, 0 ≤ dt → dt ≤ t → ∀ a ∈ l, Q a dt := by
  induction l with
  | nil => exact ⟨1, one_pos, fun _ _ _ a ha => absurd ha List.not_mem_nil⟩
  | cons a l ih =>
    obtain ⟨t, ht, h1⟩ := ih fun b hb => h b (List.mem_cons_of_mem _ hb)
    obtain ⟨t', ht', h2⟩ := h a List.mem_cons_self
    refine ⟨min t t', lt_min ht ht', fun dt h0 hdt b hb => ?_⟩
    rcases List.mem_cons.1 hb with rfl | hb
    · exact h2 dt h0 (hdt.trans (min_le_right _ _))
    · exact h1 dt h0 (hdt.trans (min_le_left _ _)) b hb

theorem small_step {w : ℚ} (hw : 0 < w) (v a : ℚ) : ∃ t > 0, ∀ dt, 0 ≤ dt → dt ≤ t → -w ≤ dt * (v + dt * a) := by
  have hpos : 0 < |v| + |a| + 1 := by positivity
  refine ⟨min 1 (w / (|v| + |a| + 1)), lt_min one_pos (div_pos hw hpos), fun dt h0 hdt => ?_⟩
  have h1 : dt ≤ 1 := hdt.trans (min_le_left _ _)
  have h2 : dt * (|v| + |a| + 1) ≤ w := (le_div_iff₀ hpos).1 (hdt.trans (min_le_right _ _))
  have h3 : -|v| ≤ v := neg_abs_le v
  have h4 : -|a| ≤ dt * a := by
    have := neg_abs_le a
    have := abs_nonneg a
    nlinarith
  nlinarith

/-- The moved particle is in the domain for small steps. -/
theorem kick_in_box {D : Domain 3} (hD : Domain.Ok D) (acc : Fin 3 → ℚ) (q : Body 3) (hq : InBox D q.pos) :
    ∃ t > 0, ∀ dt, 0 ≤ dt → dt ≤ t → InBox D (kickDrift D dt acc q).pos := by
  obtain ⟨t, ht, h⟩ := common_step (Q := fun k dt => -(D.xmax k - D.xmin k) ≤ dt * (q.vel k + dt * acc k))
    (List.finRange 3) fun k _ => small_step (sub_pos.2 (hD k)) (q.vel k) (acc k)
  exact ⟨t, ht, fun dt h0 hdt => (C54_in_domain_partial hD dt acc q hq fun k => h dt h0 hdt k (List.mem_finRange k)).1⟩

section
variable {C : Poisson 3} {M : Finset (Oct 3)} {L : ℕ} (hG : C.grid.WF) (hM : Tiling C.grid M)
  (hB : Balanced C.grid M) (hper : ∀ k, C.grid.periodic k = true) (hD : Domain.Ok C.dom)
  (hlev : ∀ o ∈ M, C.grid.lmin ≤ o.level ∧ o.level ≤ L) (hb0 : ∀ k, 0 < C.blk k) (hb : ∀ k, 2 ∣ C.blk k)
include hG hM hB hper hD hlev hb0 hb

theorem deposit_defined (k : Cloud) {p : Part 3} (hp : InBox C.dom p.pos) : (deposit k C L M p).isSome := by
  obtain ⟨c, sh, h1, -, -, -, -, -, -, h2, -⟩ := acc_spec hG hM hB hper hD C.grid.lmin L hlev hb0 (Or.inl hb) p.pos hp
  cases k with
  | ngp =>
    show (ngp C.dom C.grid M C.grid.lmin L C.blk ⟨p.pos, p.mass⟩).isSome
    unfold ngp
    simp only [h1]
    rfl
  | cic =>
    show (cic C.dom C.grid M C.grid.lmin L C.blk ⟨p.pos, p.mass⟩).isSome
    rw [h2]
    rfl

theorem advance_defined (k : Cloud) (g : Oct 3 → (Fin 3 → ℕ) → Fin 3 → ℚ) {p : Part 3} (hp : InBox C.dom p.pos) :
    ∃ acc, ∀ dt, advance k C L M g dt p =
      some ⟨(kickDrift C.dom dt acc ⟨p.pos, p.vel⟩).pos, (kickDrift C.dom dt acc ⟨p.pos, p.vel⟩).vel, p.mass⟩ := by
  obtain ⟨c, sh, h1, -, -, -, -, -, -, -, h2, -⟩ := acc_spec hG hM hB hper hD C.grid.lmin L hlev hb0 (Or.inl hb) p.pos hp
  cases k with
  | ngp =>
    refine ⟨fun j => g c.oct c.idx j, fun dt => ?_⟩
    unfold advance ngpMove
    simp only [h1]
    rfl
  | cic =>
    refine ⟨![(sh.map fun w => w.2 * g w.1.oct w.1.idx 0).sum, (sh.map fun w => w.2 * g w.1.oct w.1.idx 1).sum,
      (sh.map fun w => w.2 * g w.1.oct w.1.idx 2).sum], fun dt => ?_⟩
    unfold advance cicMove
    simp only [h2]
    rfl

theorem move_defined (k : Cloud) (g : Oct 3 → (Fin 3 → ℕ) → Fin 3 → ℚ) (ps : List (Part 3))
    (hp : ∀ p ∈ ps, InBox C.dom p.pos) : ∃ t > 0, ∀ dt, 0 ≤ dt → dt ≤ t → ∃ ps', globalMove k C L M g dt ps = some ps' ∧
      ∀ p ∈ ps', InBox C.dom p.pos := by
  obtain ⟨t, ht, h⟩ := common_step (Q := fun p dt => ∃ p', advance k C L M g dt p = some p' ∧ InBox C.dom p'.pos) ps
    fun p hm => by
      obtain ⟨acc, h1⟩ := advance_defined hG hM hB hper hD hlev hb0 hb k g (hp p hm)
      obtain ⟨t, ht, h2⟩ := kick_in_box hD acc ⟨p.pos, p.vel⟩ (hp p hm)
      exact ⟨t, ht, fun dt h0 hdt => ⟨_, h1 dt, h2 dt h0 hdt⟩⟩
  refine ⟨t, ht, fun dt h0 hdt => ?_⟩
  have h' := h dt h0 hdt
  clear h hp
  unfold globalMove
  induction ps with
  | nil => exact ⟨[], rfl, fun p hp => absurd hp List.not_mem_nil⟩
  | cons a l ih =>
    obtain ⟨l', h1, h2⟩ := ih fun p hm => h' p (List.mem_cons_of_mem _ hm)
    obtain ⟨a', h3, h4⟩ := h' a List.mem_cons_self
    refine ⟨a' :: l', ?_, ?_⟩
    · rw [List.mapM_cons, h3, h1]; rfl
    · intro p hm
      rcases List.mem_cons.1 hm with rfl | hm
      · exact h4
      · exact h2 p hm

/-- The cycle on the whole mesh of a periodic domain is defined for small steps. -/
theorem cycle_defined (k k' : Cloud) (eps : ℚ) {source : ℚ → Fld 3 ℚ → Fld 3 ℚ} (rho gphi : Fld 3 ℚ) (ps : List (Part 3))
    (hp : ∀ p ∈ ps, InBox C.dom p.pos)
    (hsrc : (∃ a, source = rhs C.dom C.grid C.blk a) ∨ (∃ a, source = rhsCosmo C.dom C.grid C.blk a) ∧
      ∀ rhoG, globalDeposit k C L M rho ps = some rhoG → rhoMean C.dom C.grid M C.blk rhoG ≠ 0) :
    ∃ t > 0, ∀ dt, 0 ≤ dt → dt ≤ t → ∃ v,
      globalCycle k k' C L M eps (M.card * (∏ k, C.blk k) + 1) source dt rho gphi ps = some v ∧
        ∀ p ∈ v.2.2, InBox C.dom p.pos := by
  obtain ⟨rhoG, h1⟩ : ∃ rhoG, globalDeposit k C L M rho ps = some rhoG :=
    ⟨_, if_pos fun p hm => deposit_defined hG hM hB hper hD hlev hb0 hb k (hp p hm)⟩
  have hsol : Solvable C.absorbing C.grid M C.blk (source (rhoMean C.dom C.grid M C.blk rhoG) rhoG) := by
    left
    rcases hsrc with ⟨a, rfl⟩ | ⟨⟨a, rfl⟩, hm⟩
    · exact (C49_compatible hG.toPos hM hb0 hD a a rhoG).1
    · exact (C49_compatible hG.toPos hM hb0 hD a a rhoG).2 (hm _ h1)
  obtain ⟨phi, hphi⟩ := C49_terminates hG.toPos hM hB (by norm_num) hD hb0 C.absorbing hsol gphi eps
  obtain ⟨v, h2⟩ : ∃ v, globalGravity C M eps (M.card * (∏ k, C.blk k) + 1) source rhoG gphi = some v := by
    unfold globalGravity
    rw [hphi]
    exact ⟨_, rfl⟩
  obtain ⟨t, ht, h3⟩ := move_defined hG hM hB hper hD hlev hb0 hb k' (fun o x j => (v.2 o x j).getD 0) ps hp
  refine ⟨t, ht, fun dt h0 hdt => ?_⟩
  obtain ⟨ps', h4, h5⟩ := h3 dt h0 hdt
  unfold globalCycle
  rw [h1, Option.bind_some, h2, Option.bind_some, h4]
  exact ⟨_, rfl, h5⟩

end

/-- **C92** (definedness). In a periodic domain with a full cube of coarse octants the cycle is defined on any number of
ranks if the step is small enough: no kernel of a rank leaves its octants and ghosts, the solver ends, all particles are
sent to ranks, and all are in the domain on the ranks of their octants. The mean of the projected density must not be 0
in a cosmological run. -/
theorem C92_defined_partial {P : ℕ} [NeZero P] {C : Poisson 3} {e L : ℕ} (hG : C.grid.WF) (hde : 3 ≤ e) (h64 : e * L < 64)
    (hL : C.grid.lmin ≤ L) (hT : ∏ i, C.grid.coarse i < 2 ^ 32) (hP : P ≤ ∏ i, C.grid.coarse i) (hD : Domain.Ok C.dom)
    (hb0 : ∀ k, 0 < C.blk k) (hb : ∀ k, 2 ∣ C.blk k) (hfull : ∀ i, C.grid.coarse i = 2 ^ C.grid.lmin)
    (hper : ∀ k, C.grid.periodic k = true) {mks : List (Oct 3 → ℤ)} {s : Ranks 3 P} (h : Reach e L C.grid mks s)
    (k k' : Cloud) {gc : ℕ} (hgc : 1 ≤ gc) (eps : ℚ) {source : ℚ → Fld 3 ℚ → Fld 3 ℚ}
    {order : Fin P → List (CellIndex 3 × ℚ) → List (CellIndex 3 × ℚ)} (hord : ∀ r l, (order r l).Perm l)
    (rho gphi : RFld 3 P ℚ) (g : Fin P → Oct 3 → (Fin 3 → ℕ) → Fin 3 → ℚ) (old : CGRanks 3 P ℚ)
    {ps : Fin P → List (Part 3)} (hp : Placed C.dom C.grid s ps)
    (hsrc : (∃ a, source = rhs C.dom C.grid C.blk a) ∨ (∃ a, source = rhsCosmo C.dom C.grid C.blk a) ∧
      ∀ rhoG, globalDeposit k C L s.mesh (fun o => rho (owner s.octs o) o) (allParts ps) = some rhoG →
        rhoMean C.dom C.grid s.mesh C.blk rhoG ≠ 0) :
    ∃ t > 0, ∀ dt, 0 ≤ dt → dt ≤ t → ∃ u,
      particleCycle k k' C e L s gc eps (s.mesh.card * (∏ k, C.blk k) + 1) source dt order rho gphi g old ps = some u ∧
        (allParts u.2.2).length = (allParts ps).length ∧ Placed C.dom C.grid s u.2.2 := by
  have hs := (reach_good hG (by norm_num) hde h64 hL hT hP h).1
  have hpt : ∀ m (u v : Fld 3 ℚ) o x, u o x = v o x → source m u o x = source m v o x := by
    intro m u v o x huv
    rcases hsrc with ⟨a, rfl⟩ | ⟨⟨a, rfl⟩, -⟩
    · unfold rhs; rw [huv]
    · unfold rhsCosmo; rw [huv]
  obtain ⟨t, ht, h1⟩ := cycle_defined hG hs.tiling hs.balanced hper hD hs.levels hb0 hb k k' eps
    (fun o => rho (owner s.octs o) o) (fun o => gphi (owner s.octs o) o) (allParts ps)
    (fun p hm => by obtain ⟨r, hm⟩ := mem_allParts.1 hm; exact (hp r p hm).1) hsrc
  refine ⟨t, ht, fun dt h0 hdt => ?_⟩
  obtain ⟨v, h2, h3⟩ := h1 dt h0 hdt
  rcases C92_cycle_partial hG hde h64 hL hT hP hD hb0 hb hfull h k k' hgc eps (s.mesh.card * (∏ k, C.blk k) + 1) hpt dt hord
    rho gphi g old hp (fun w hw => by rw [h2] at hw; cases hw; exact h3) with ⟨u, v', e1, e2, -, e4, e5⟩ | ⟨-, e2⟩
  · refine ⟨u, e1, ?_, e5⟩
    rw [e4.length_eq]
    unfold globalCycle at e2
    obtain ⟨_, -, e2⟩ := Option.bind_eq_some_iff.1 e2
    obtain ⟨_, -, e2⟩ := Option.bind_eq_some_iff.1 e2
    obtain ⟨l, e3, rfl⟩ := Option.map_eq_some_iff.1 e2
    unfold globalMove at e3
    have := congrArg List.length (mapM_eq_some.1 e3)
    rw [List.length_map, List.length_map] at this
    exact this.symm
  · rw [h2] at e2; cases e2

/-! ### Mass -/

/-- The projection on the whole mesh makes the additions of all particles. -/
theorem globalDeposit_project {d : ℕ} {k : Cloud} {C : Poisson d} {L : ℕ} {M : Finset (Oct d)} {ps : List (Part d)}
    {ws : List (List (CellIndex d × ℚ))} (h : ps.mapM (deposit k C L M) = some ws) (rho : Fld d ℚ) :
    globalDeposit k C L M rho ps = some (project rho ws.flatten) := by
  have hm := mapM_eq_some.1 h
  have hdef : ∀ p ∈ ps, (deposit k C L M p).isSome := fun p hp => by
    have : deposit k C L M p ∈ ws.map some := by rw [← hm]; exact List.mem_map_of_mem hp
    obtain ⟨w, -, hw⟩ := List.mem_map.1 this
    rw [← hw]; rfl
  unfold globalDeposit
  rw [if_pos hdef]
  congr 1
  funext o x
  rw [project_sum]
  congr 1
  rw [List.map_flatten, List.sum_flatten, List.map_map]
  congr 1
  have : ps.map (fun p => (deposit k C L M p).getD []) = ws := by
    have h1 := congrArg (List.map fun a : Option (List (CellIndex d × ℚ)) => a.getD []) hm
    rw [List.map_map, List.map_map] at h1
    exact h1.trans (List.map_id _)
  rw [← this, List.map_map]
  rfl

/-- The mass in the cells of all ranks. -/
def massRanks {d P : ℕ} (C : Poisson d) (s : Ranks d P) (rho : RFld d P ℚ) : ℚ :=
  ∑ r, totalMass C.dom C.grid C.blk (s.octs r).toFinset (rho r)

theorem massRanks_eq {d P : ℕ} [NeZero P] {C : Poisson d} {e L : ℕ} {s : Ranks d P} (hs : Good e L C.grid s)
    {f : RFld d P ℚ} {g : Fld d ℚ} (h : Own s C.blk f g) :
    massRanks C s f = totalMass C.dom C.grid C.blk s.mesh g :=
  sumRanks_eq hs (f := fun r o x => volume C.dom (cellGrid C.grid C.blk) (cellOct C.blk o x) * f r o x)
    fun r o ho x hx => by simp only; rw [h r o ho x hx]

theorem mass_ranks {d P : ℕ} [NeZero P] {C : Poisson d} {e L : ℕ} {s : Ranks d P} (hG : C.grid.WF) (hs : Good e L C.grid s)
    (hD : Domain.Ok C.dom) (hb0 : ∀ k, 0 < C.blk k) (hb : ∀ k, 2 ∣ C.blk k) {k : Cloud}
    {order : Fin P → List (CellIndex d × ℚ) → List (CellIndex d × ℚ)} (hord : ∀ r l, (order r l).Perm l) (rho : RFld d P ℚ)
    {ps : Fin P → List (Part d)} (hp : Placed C.dom C.grid s ps) {m : Particle d → ℚ}
    (h : ∃ ws, (allParts ps).mapM (deposit k C L s.mesh) = some ws ∧ ∀ order, order.Perm ws.flatten → ∀ rho,
      totalMass C.dom C.grid C.blk s.mesh (project rho order) = totalMass C.dom C.grid C.blk s.mesh rho +
        ((allParts ps).map fun p => m ⟨p.pos, p.mass⟩).sum) :
    ∃ rhoG, depositRanks k C L s order rho ps = some rhoG ∧
      massRanks C s rhoG = massRanks C s rho + ∑ r, ((ps r).map fun p => m ⟨p.pos, p.mass⟩).sum := by
  obtain ⟨ws, h1, h2⟩ := h
  have hown : Own s C.blk rho fun o => rho (owner s.octs o) o := fun r o ho x _ => by simp only; rw [owner_eq hs ho]
  have e2' := globalDeposit_project h1 fun o => rho (owner s.octs o) o
  rcases deposit_ranks hG hs hD hb0 hb k hord hown hp with ⟨a, c, e1, e2, e3⟩ | ⟨-, e2⟩
  · rw [e2'] at e2
    cases e2
    refine ⟨a, e1, ?_⟩
    rw [massRanks_eq hs e3, massRanks_eq hs hown, h2 _ (List.Perm.refl _), sum_allParts]
  · rw [e2'] at e2; cases e2

/-- **C92** (mass). Nearest grid point on any number of ranks, in any number of dimensions: the mass in the cells of all
ranks grows by the mass of the particles. -/
theorem C92_ngp_mass {d P : ℕ} [NeZero P] {C : Poisson d} {e L : ℕ} (hG : C.grid.WF) (hd : 0 < d) (hde : d ≤ e)
    (h64 : e * L < 64) (hL : C.grid.lmin ≤ L) (hT : ∏ i, C.grid.coarse i < 2 ^ 32) (hP : P ≤ ∏ i, C.grid.coarse i)
    (hD : Domain.Ok C.dom) (hb0 : ∀ k, 0 < C.blk k) (hb : ∀ k, 2 ∣ C.blk k) {mks : List (Oct d → ℤ)} {s : Ranks d P}
    (h : Reach e L C.grid mks s) {order : Fin P → List (CellIndex d × ℚ) → List (CellIndex d × ℚ)}
    (hord : ∀ r l, (order r l).Perm l) (rho : RFld d P ℚ) {ps : Fin P → List (Part d)} (hp : Placed C.dom C.grid s ps) :
    ∃ rhoG, depositRanks .ngp C L s order rho ps = some rhoG ∧
      massRanks C s rhoG = massRanks C s rho + ∑ r, ((ps r).map Part.mass).sum := by
  have hs := (reach_good hG hd hde h64 hL hT hP h).1
  obtain ⟨ws, h1, h2⟩ := C53_ngp hG hs.tiling hD C.grid.lmin L hs.levels hb0
    ((allParts ps).map fun p => (⟨p.pos, p.mass⟩ : Particle d)) (by
      intro q hq
      obtain ⟨p, hm, rfl⟩ := List.mem_map.1 hq
      obtain ⟨r, hm⟩ := mem_allParts.1 hm
      exact (hp r p hm).1)
  refine mass_ranks hG hs hD hb0 hb hord rho hp (m := Particle.mass) ⟨ws, ?_, fun o ho rho => ?_⟩
  · rw [mapM_eq_some] at h1 ⊢
    rw [List.map_map] at h1
    exact h1
  · rw [h2 o ho, List.map_map]
    rfl

/-- **C92** (mass). Cloud in cell on any number of ranks in a periodic domain: the mass in the cells of all ranks
grows by the mass of the particles that are not at an edge or a corner of a finer region (C53). -/
theorem C92_cic_mass_partial {P : ℕ} [NeZero P] {C : Poisson 3} {e L : ℕ} (hG : C.grid.WF) (hde : 3 ≤ e)
    (h64 : e * L < 64) (hL : C.grid.lmin ≤ L) (hT : ∏ i, C.grid.coarse i < 2 ^ 32) (hP : P ≤ ∏ i, C.grid.coarse i)
    (hper : ∀ k, C.grid.periodic k = true) (hD : Domain.Ok C.dom) (hb0 : ∀ k, 0 < C.blk k) (hb : ∀ k, 2 ∣ C.blk k)
    {mks : List (Oct 3 → ℤ)} {s : Ranks 3 P} (h : Reach e L C.grid mks s)
    {order : Fin P → List (CellIndex 3 × ℚ) → List (CellIndex 3 × ℚ)} (hord : ∀ r l, (order r l).Perm l) (rho : RFld 3 P ℚ)
    {ps : Fin P → List (Part 3)} (hp : Placed C.dom C.grid s ps)
    (hfine : ∀ r, ∀ p ∈ ps r, NoFinerDiagonal C.dom C.grid s.mesh C.blk p.pos) :
    ∃ rhoG, depositRanks .cic C L s order rho ps = some rhoG ∧
      massRanks C s rhoG = massRanks C s rho + ∑ r, ((ps r).map Part.mass).sum := by
  have hs := (reach_good hG (by norm_num) hde h64 hL hT hP h).1
  obtain ⟨ws, h1, h2⟩ := C53_cic_partial hG hs.tiling hs.balanced hper hD C.grid.lmin L hs.levels hb0 (Or.inl hb)
    ((allParts ps).map fun p => (⟨p.pos, p.mass⟩ : Particle 3)) (by
      intro q hq
      obtain ⟨p, hm, rfl⟩ := List.mem_map.1 hq
      obtain ⟨r, hm⟩ := mem_allParts.1 hm
      exact (hp r p hm).1) (by
      intro q hq
      obtain ⟨p, hm, rfl⟩ := List.mem_map.1 hq
      obtain ⟨r, hm⟩ := mem_allParts.1 hm
      exact hfine r p hm)
  refine mass_ranks hG hs hD hb0 hb hord rho hp (m := Particle.mass) ⟨ws, ?_, fun o ho rho => ?_⟩
  · rw [mapM_eq_some] at h1 ⊢
    rw [List.map_map] at h1
    exact h1
  · rw [h2 o ho, List.map_map]
    rfl

end Verif.Sim
