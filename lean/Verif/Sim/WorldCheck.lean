import Verif.Sim.WorldMore
import Verif.Sim.CloudCheck

/-!
# C93: a run that meets the hypotheses
-/

namespace Verif.Sim

open Verif.Octree Verif.Cells Verif.Adapt Verif.Flux Verif.Hydro Verif.Run Verif.Gravity Verif.Particles

/-- Gas with two variables, `rho` (`false`) and an energy, in a periodic box of 4x4x4 coarse octants of 4x4x4 cells; it is carried along the first axis
and there is more of both in one octant. -/
def worldCfg (tEnd : ℚ) : Config 3 ℚ (Var Bool) Unit ℚ where
  dom := ⟨fun _ => 0, fun _ => 1⟩
  grid := ⟨2, fun _ => 4, fun _ => true⟩
  blk := fun _ => 4
  bits := 3
  lmax := 4
  need := fun o _ => decide (o = ⟨2, fun _ => 0⟩)
  init := fun o _ i => match i with
    | .inl _ => if o = ⟨2, fun _ => 0⟩ then 2 else 1
    | .inr _ => 0
  rate := fun _ _ => 1
  lowest := 0
  maxReal := 1000
  cfl := 1
  tEnd := some tEnd
  toPrim := fun u _ => u (.inl false)
  big := 1000
  recon := fun _ q _ _ _ => q ()
  flux := fun j l _ i => if j = 0 ∧ i = .inl false then l else 0
  bflux := fun _ _ _ _ _ _ => 0
  post := fun _ _ v => v
  rho := fun u => u (.inl false)
  errorMin := 1 / 10
  errorMax := 1 / 5
  depth := 10

/-- With any hydro solver, with and without terms. -/
def worldCase (gas : Gas Bool Unit) (terms : Option (Terms 3 ℚ (Var Bool))) (tEnd : ℚ) (iters : ℕ) : Setup Bool Unit ℚ where
  cfg := worldCfg tEnd
  gas := gas
  terms := terms
  bval := fun _ _ _ => 0
  avg := fun _ _ => 0
  density := false
  absorbing := fun _ => false
  eps := 1 / 1000
  iters := iters
  source := fun _ => rhs ⟨fun _ => 0, fun _ => 1⟩ ⟨2, fun _ => 4, fun _ => true⟩ (fun _ => 4) 12
  project := .cic
  move := .cic

theorem worldCase_ok (gas : Gas Bool Unit) {terms : Option (Terms 3 ℚ (Var Bool))} (ht : terms.isSome → gas ≠ .off) (tEnd : ℚ)
    (iters : ℕ) : (worldCase gas terms tEnd iters).Ok where
  cfg := ⟨Or.inr rfl, le_refl 3, boxCase_wf, show 1 ≤ 2 by decide, show 2 ≤ 4 by decide,
    show 3 * 4 < 64 by decide, show (∏ _k : Fin 3, 4) < 2 ^ 32 by decide, fun _ => show 0 < 4 by norm_num,
    show (0 : ℚ) < 1 by norm_num, show 0 < 10 by norm_num, trivial⟩
  dom := fun _ => show (0 : ℚ) < 1 by norm_num
  full := fun _ => rfl
  even := fun _ => show 2 ∣ 4 by norm_num
  layers := by cases gas <;> first | trivial | exact fun _ => le_refl 4
  terms := fun h => ⟨ht h, fun _ => le_refl 4⟩
  source := fun _ m u v o x h => by
    show rhs _ _ _ _ _ _ _ _ = rhs _ _ _ _ _ _ _ _
    unfold rhs; rw [h]

/-- Additions in reverse order, garbage in new arrays. -/
def noise (P : ℕ) : Noise P Bool :=
  ⟨fun _ l => l.reverse, ⟨fun r _ _ => 5 + r, fun _ _ _ => 6, fun _ _ _ => 7, 8⟩, fun r _ _ _ => r⟩

theorem noise_ok (P : ℕ) : (noise P).Ok := fun _ l => l.reverse_perm

theorem advance_shape {P : ℕ} [NeZero P] {F : Setup Bool Unit ℚ} {nz : Noise P Bool} {w u : World P Bool} {dt : ℚ}
    (h : advanceWorld F nz w dt = some u) : u.sim.ranks = w.sim.ranks ∧ u.sim.time = w.sim.time + dt := by
  unfold advanceWorld at h
  obtain ⟨_, -, h1⟩ := Option.bind_eq_some_iff.1 h
  obtain ⟨_, -, h2⟩ := Option.bind_eq_some_iff.1 h1
  obtain ⟨_, -, h3⟩ := Option.bind_eq_some_iff.1 h2
  obtain ⟨_, -, h4⟩ := Option.bind_eq_some_iff.1 h3
  obtain ⟨_, -, rfl⟩ := Option.map_eq_some_iff.1 h4
  exact ⟨rfl, rfl⟩

theorem balance_time {P : ℕ} [NeZero P] {F : Setup Bool Unit ℚ} {nz : Noise P Bool} {w u : World P Bool} {level : ℕ}
    (h : act F w (.loadBalance level, nz) = some u) : u.sim.time = w.sim.time := by
  replace h : ((loadBalance F.cfg level w.sim).bind fun s => (place F s.ranks w.parts).map fun ps =>
    (⟨s, ps⟩ : World P Bool)) = some u := h
  obtain ⟨s, h1, h2⟩ := Option.bind_eq_some_iff.1 h
  obtain ⟨_, -, rfl⟩ := Option.map_eq_some_iff.1 h2
  unfold loadBalance at h1
  obtain ⟨_, -, rfl⟩ := Option.map_eq_some_iff.1 h1
  rfl

/-- A run with any of the hydro solvers, with any terms, on eight ranks, with two particles, which are all on rank 5 at first: an iteration and load balancing. It ends; the
time step is positive; the same run on one rank ends with the same state; the mass is that of the initial state. -/
example (gas : Gas Bool Unit) (hp : gas.Plain) (hgc : gas.Conservative) (terms : Option (Terms 3 ℚ (Var Bool)))
    (ht : terms.isSome → gas ≠ .off) (hi : ∀ T, terms = some T → .inl false ≠ T.energy ∧ ∀ a, .inl false ≠ T.mom a) :
    ∃ (F : Setup Bool Unit ℚ) (w t : World 8 Bool) (t' : World 1 Bool), F.Ok ∧
    F.gas = gas ∧ F.terms = terms ∧
    runWorld F 0 [] (fun r => if r = 5 then twoParts else []) [] = some w ∧
    runWorld F 0 [] (fun r => if r = 5 then twoParts else []) [(.iterate, noise 8), (.loadBalance 1, noise 8)] = some t ∧
    runWorld F 0 [] (fun _ => twoParts) [(.iterate, noise 1), (.loadBalance 1, noise 1)] = some t' ∧ 0 < t.sim.time ∧
    SameWorld F.cfg.blk t t' ∧ worldMass F t = worldMass F w ∧ (allParts t.parts).length = 2 := by
  have h8 : ∀ T n, 8 ≤ ∏ k, (worldCase gas terms T n).cfg.grid.coarse k := fun _ _ => show 8 ≤ ∏ k : Fin 3, 4 by decide
  obtain ⟨s, es, hs, s1, -⟩ := startSim_spec (P := 8) (worldCase_ok gas ht 1 0).cfg (h8 1 0) 0
  have all8 : allParts (fun r : Fin 8 => if r = 5 then twoParts else []) = twoParts := rfl
  set n := s.ranks.mesh.card * (∏ k : Fin 3, 4) + 1 with hn
  obtain ⟨ps, p1, p2, p3⟩ := place_some (worldCase_ok gas ht 1 n) hs (ps := fun r => if r = 5 then twoParts else [])
    (by rw [all8]; exact twoParts_in_box)
  have hw : WorldOk (worldCase gas terms 1 n) (⟨s, ps⟩ : World 8 Bool) := ⟨hs, p3⟩
  obtain ⟨t0, ht0, hadv⟩ := advance_world_defined (worldCase_ok gas ht 1 n) hp (fun _ => rfl) hw (Nat.lt_succ_self _) ⟨12, rfl⟩
  have hok := worldCase_ok gas ht t0 n
  have hrun : simulate (worldCase gas terms t0 n).cfg 0 [] = some s := by
    have e0 : startSim (worldCase gas terms t0 n).cfg 0 = some s := es
    unfold simulate
    rw [e0]; rfl
  have hplace : place (worldCase gas terms t0 n) s.ranks (fun r => if r = 5 then twoParts else []) = some ps := p1
  have hw' : WorldOk (worldCase gas terms t0 n) (⟨s, ps⟩ : World 8 Bool) := ⟨hs, p3⟩
  obtain ⟨dt0, hdt0⟩ := Option.isSome_iff_exists.1 (computeDt_isSome_of (C := (worldCase gas terms t0 n).cfg) (s := s) hok.cfg.cfl hs
    hok.cfg.blk fun _ _ => show (0 : ℚ) ≤ 1 by norm_num)
  have hpos : 0 < dt0 := by
    rcases (dt_isLeast hok.cfg.cfl hs hdt0).1 with h | ⟨ρ, h1, h2, -⟩
    · rw [h]; show (0 : ℚ) < 1000; norm_num
    · rw [h2]; exact div_pos (show (0 : ℚ) < 1 by norm_num) h1
  have htime : s.time = 0 := s1
  have hc : 0 < correctDt (worldCase gas terms t0 n).cfg s.time dt0 ∧ correctDt (worldCase gas terms t0 n).cfg s.time dt0 ≤ t0 := by
    show 0 < (if t0 < s.time + dt0 then t0 - s.time else dt0) ∧ (if t0 < s.time + dt0 then t0 - s.time else dt0) ≤ t0
    rw [htime]
    split_ifs with h <;> constructor <;> linarith
  obtain ⟨u, hu⟩ := hadv _ hc.1.le hc.2 (noise 8) (noise_ok 8)
  have hact : act (worldCase gas terms t0 n) ⟨s, ps⟩ (.iterate, noise 8) = some u := by
    show ((computeDt (worldCase gas terms t0 n).cfg s).bind fun dt =>
      advanceWorld (worldCase gas terms t0 n) (noise 8) ⟨s, ps⟩ (correctDt (worldCase gas terms t0 n).cfg s.time dt)) = some u
    rw [hdt0]
    exact hu
  have r0 : runWorld (worldCase gas terms t0 n) 0 [] (fun r => if r = 5 then twoParts else []) [] = some ⟨s, ps⟩ := by
    unfold runWorld
    rw [hrun, Option.bind_some, hplace]; rfl
  have r1 : runWorld (worldCase gas terms t0 n) 0 [] (fun r => if r = 5 then twoParts else []) [(.iterate, noise 8)] = some u := by
    unfold runWorld
    rw [hrun, Option.bind_some, hplace, Option.bind_some, List.foldlM_cons, hact]; rfl
  have hu2 : u.sim.ranks.mesh = s.ranks.mesh := congrArg Ranks.mesh (advance_shape hu).1
  have one : ∀ a ∈ [((.iterate : Act), noise 8)], a.2.Ok := by simp [noise_ok]
  have two : ∀ a ∈ [((.iterate : Act), noise 8), (.loadBalance 1, noise 8)], a.2.Ok := by simp [noise_ok]
  have two' : ∀ a ∈ [((.iterate : Act), noise 1), (.loadBalance 1, noise 1)], a.2.Ok := by simp [noise_ok]
  obtain ⟨-, hlb, -⟩ := C93_progress_partial hok hp (fun _ => rfl) (h8 t0 n) (fun _ => ⟨12, rfl⟩) 0 [] one r1
    (by rw [hu2]; exact Nat.lt_succ_self _)
  obtain ⟨t, ht⟩ := hlb 1 (noise 8)
  have r2 : runWorld (worldCase gas terms t0 n) 0 [] (fun r => if r = 5 then twoParts else [])
      [(.iterate, noise 8), (.loadBalance 1, noise 8)] = some t := by
    unfold runWorld
    rw [hrun, Option.bind_some, hplace, Option.bind_some, List.foldlM_cons, hact]
    show [((.loadBalance 1 : Act), noise 8)].foldlM (act (worldCase gas terms t0 n)) u = some t
    rw [List.foldlM_cons, ht]; rfl
  obtain ⟨t', r3, r4⟩ := C93_serial_partial hok (h8 t0 n) 0 [] rfl two two' r2
  refine ⟨worldCase gas terms t0 n, ⟨s, ps⟩, t, t', hok, rfl, rfl, r0, r2, r3, ?_, r4,
    C93_mass_partial hok hgc (fun _ => rfl) (fun _ _ _ => rfl) hi (h8 t0 n) 0 [] (as := []) two r0 r2, ?_⟩
  · rw [balance_time ht, (advance_shape hu).2]
    show 0 < s.time + correctDt (worldCase gas terms t0 n).cfg s.time dt0
    rw [htime] at hc ⊢
    linarith [hc.1]
  · have := (C93_particles_partial hok (h8 t0 n) 0 [] two r2).1.length_eq
    rw [List.length_map, List.length_map, all8] at this
    exact this

/-- Such solvers. -/
example : (Gas.off : Gas Bool Unit).Conservative ∧ (Gas.oneNeighbor : Gas Bool Unit).Conservative ∧
    ∀ f : Fin 3 → (Unit → ℚ) → (Unit → ℚ) → ℚ, (Gas.block (.euler fun _ => ⟨fun u _ => u (.inl false), fun q _ => q (), f, none⟩) :
      Gas Bool Unit).Conservative ∧
    (Gas.rk2 (fun _ => ⟨fun u _ => u (.inl false), fun q _ => q (), f, none⟩) : Gas Bool Unit).Conservative :=
  ⟨trivial, trivial, fun _ => ⟨fun _ => rfl, fun _ => rfl⟩⟩

/-- Such terms: all three, for the second variable. -/
example : ∃ T : Terms 3 ℚ (Var Bool), T.viscosity.isSome ∧ T.conduction.isSome ∧ T.cooling.isSome ∧
    .inl false ≠ T.energy ∧ ∀ a, .inl false ≠ T.mom a :=
  ⟨⟨fun _ => .inl true, .inl true, some (1, fun u _ => u (.inl true), 1), some ⟨fun u => u (.inl true), fun p => p 0, fun _ _ => none⟩,
    some (.oneCell, 3, 2)⟩, rfl, rfl, rfl, by decide, by decide⟩

end Verif.Sim
