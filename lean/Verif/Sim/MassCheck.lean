import Verif.Sim.MassParticles
import Verif.Sim.WorldCheck

/-!
# C110: a run in which particles refine the mesh
-/

namespace Verif.Sim

open Verif.Octree Verif.Cells Verif.Adapt Verif.Flux Verif.Hydro Verif.Run Verif.Gravity Verif.Particles Verif.Remap

/-- The world of C93, with nearest grid point projection. -/
def massCase : Setup Bool Unit ℚ := { worldCase .oneNeighbor none 1 0 with project := .ngp }

theorem massCase_ok : massCase.Ok :=
  have h := worldCase_ok .oneNeighbor (terms := none) (fun h => by cases h) 1 0
  ⟨h.cfg, h.dom, h.full, h.even, h.layers, h.terms, h.source⟩

/-- The octant of the second particle. -/
def heavy : Oct 3 := ⟨2, fun _ => 2⟩

/-- The octant of the first particle. -/
def light : Oct 3 := ⟨2, fun _ => 0⟩

instance (o : Oct 3) (x : Fin 3 → ℕ) (p : Fin 3 → ℚ) :
    Decidable (InCell massCase.cfg.dom massCase.cfg.grid massCase.cfg.blk o x p) := by
  unfold InCell; infer_instance

theorem massCase_vol (o : Oct 3) (ho : o.level = 2) (x : Fin 3 → ℕ) :
    volume massCase.cfg.dom (cellGrid massCase.cfg.grid massCase.cfg.blk) (cellOct massCase.cfg.blk o x) = 1 / 4096 := by
  unfold volume cellSize hi lo Grid.count cellGrid cellOct
  rw [ho]
  simp only [massCase, worldCase, worldCfg, Fin.prod_univ_three]
  norm_num
  ring_nf

theorem massCase_mass {w : World 8 Bool} (hd : w.sim.data = fun _ => massCase.cfg.init)
    (hp : (allParts w.parts).Perm twoParts) {r : Fin 8} {o : Oct 3} (ho : o.level = 2) (x : Fin 3 → ℕ) :
    massIn massCase r w o x = (if o = light then 2 else 1) / 4096 +
      ((if InCell massCase.cfg.dom massCase.cfg.grid massCase.cfg.blk o x ![1 / 100, 1 / 100, 1 / 100] then 1 else 0) +
        if InCell massCase.cfg.dom massCase.cfg.grid massCase.cfg.blk o x ![1 / 2, 1 / 2, 1 / 2] then 3 else 0) := by
  unfold massIn
  rw [massCase_vol o ho x, (hp.map _).sum_eq, hd]
  have e : massCase.cfg.init o x (.inl massCase.density) = if o = light then 2 else 1 := rfl
  simp only [e, twoParts, List.map_cons, List.map_nil, List.sum_cons, List.sum_nil, add_zero]
  congr 1
  split_ifs <;> norm_num

/-- Eight ranks, the two particles on rank 5 at first, `mass_refine = 2`: the octant of the particle of mass 3 is marked and
cut, that of the particle of mass 1 is not marked although it has more gas. The same run on one rank ends with the same
state; the mass is that of the initial state. -/
example : ∃ (w t : World 8 Bool) (t' : World 1 Bool) (mk : Oct 3 → ℤ), massCase.Ok ∧ massCase.project = .ngp ∧
    massRun massCase 2 0 0 [] (fun r => if r = 5 then twoParts else []) [] = some w ∧
    massMarks massCase 2 0 (noise 8).order w = some mk ∧ mk heavy = 1 ∧ mk light = 0 ∧
    massRun massCase 2 0 0 [] (fun r => if r = 5 then twoParts else []) [(.amr, noise 8)] = some t ∧
    (∀ c, PartOf heavy c → ∃ r, c ∈ t.sim.ranks.octs r) ∧
    massRun massCase 2 0 0 [] (fun _ => twoParts) [(.amr, noise 1)] = some t' ∧ SameWorld massCase.cfg.blk t t' ∧
    worldMass massCase t = worldMass massCase w := by
  have h8 : 8 ≤ ∏ k, massCase.cfg.grid.coarse k := show 8 ≤ ∏ k : Fin 3, 4 by decide
  have hF := massCase_ok
  obtain ⟨s, es, hs, -, s2, s3⟩ := startSim_spec (P := 8) hF.cfg h8 0
  have all8 : allParts (fun r : Fin 8 => if r = 5 then twoParts else []) = twoParts := rfl
  obtain ⟨ps, p1, p2, p3⟩ := place_some hF hs (ps := fun r => if r = 5 then twoParts else [])
    (by rw [all8]; exact twoParts_in_box)
  rw [all8] at p2
  have hw : WorldOk massCase (⟨s, ps⟩ : World 8 Bool) := ⟨hs, p3⟩
  have r0 : ∀ as, massRun massCase 2 0 0 [] (fun r : Fin 8 => if r = 5 then twoParts else []) as =
      as.foldlM (massAct massCase 2 0) ⟨s, ps⟩ := by
    intro as
    unfold massRun simulate
    rw [es]
    show ((place massCase s.ranks (fun r : Fin 8 => if r = 5 then twoParts else [])).bind _) = _
    rw [p1, Option.bind_some]
  have one : ∀ a ∈ [((.amr : Act), noise 8)], a.2.Ok := by simp [noise_ok]
  have one' : ∀ a ∈ [((.amr : Act), noise 1)], a.2.Ok := by simp [noise_ok]
  have hlev : ∀ o ∈ s.ranks.mesh, o.level = 2 := fun o ho => ((s3 o).1 ho).1
  obtain ⟨r1, hr1⟩ := (mem_leaves _ _).1 ((s3 heavy).2 ⟨rfl, fun _ => show 2 < 4 by norm_num⟩)
  obtain ⟨r2, hr2⟩ := (mem_leaves _ _).1 ((s3 light).2 ⟨rfl, fun _ => show 0 < 4 by norm_num⟩)
  obtain ⟨mk, m1, m2⟩ := C110_marks_partial (m₁ := 2) (m₂ := 0) hF h8 rfl 0 [] (as := []) (by simp) (r0 []) (noise_ok 8)
  have hheavy : (2 : ℚ) < massIn massCase r1 (⟨s, ps⟩ : World 8 Bool) heavy fun _ => 0 := by
    rw [massCase_mass s2 p2 rfl, if_neg (by decide +kernel), if_neg (by decide +kernel), if_pos (by decide +kernel)]
    norm_num
  have hlight : ∀ x : Fin 3 → ℕ, (∀ k, x k < 4) → massIn massCase r2 (⟨s, ps⟩ : World 8 Bool) light x ≤ 2 := by
    intro x hx
    rw [massCase_mass s2 p2 rfl, if_pos rfl, if_neg (c := InCell _ _ _ _ _ ![1 / 2, 1 / 2, 1 / 2])]
    · split_ifs <;> norm_num
    · intro h
      have h0 := (h 0).2
      have h1 : (x 0 : ℚ) ≤ 3 := by exact_mod_cast Nat.le_of_lt_succ (hx 0)
      simp only [hi, Grid.count, cellGrid, cellOct, light, massCase, worldCase, worldCfg] at h0
      norm_num at h0
      linarith
  have hk1 : mk heavy = 1 := (m2 r1 heavy hr1).1.2 ⟨show 2 < 4 by norm_num, fun _ => 0, fun _ => show 0 < 4 by norm_num, hheavy⟩
  have hrange : ∀ o ∈ s.ranks.mesh, 0 ≤ mk o ∧ mk o ≤ 1 := by
    intro o ho
    rcases massMarks_same hF hw hw (SameWorld.refl hw) (noise_ok 8) (noise_ok 8) 2 0 with ⟨f, f', f1, -, f3, -⟩ | ⟨f1, -⟩
    swap
    · rw [m1] at f1; cases f1
    rw [m1] at f1
    cases f1
    obtain ⟨a1, a2, a3, -⟩ := f3 o ho
    refine ⟨?_, a2⟩
    by_contra hneg
    have := a3 (by omega)
    rw [hlev o ho] at this
    exact absurd this (show ¬ 2 < 2 by norm_num)
  have hk2 : mk light = 0 := by
    obtain ⟨b1, b2⟩ := hrange light (mem_mesh hr2)
    have : mk light ≠ 1 := fun h => by
      obtain ⟨-, x, hx, hm⟩ := (m2 r2 light hr2).1.1 h
      exact absurd hm (not_lt.2 (hlight x hx))
    omega
  have hask : Asked massCase.cfg s.ranks.mesh mk := fun o ho => by
    obtain ⟨b1, b2⟩ := hrange o ho
    exact ⟨by omega, b2, fun h => by omega, fun _ => by rw [hlev o ho]; exact show 2 < 4 by norm_num⟩
  obtain ⟨hreq, hmax⟩ := requested_of hF.cfg hs hask
  obtain ⟨f, hf, hf1, -⟩ := adapt_spec hF.cfg.wf hF.cfg.bits hF.cfg.keys hs hreq hmax
  have htog : Together s.ranks.mesh f (owner s.ranks.octs) := fun a ha h => by
    have := hf.1 a ha
    have := (hrange a ha).1
    omega
  obtain ⟨u, hu⟩ := Option.isSome_iff_exists.1 (amrWith_isSome hF.cfg hs hask hf (keeps_octant hs hf.2.1 hf1 htog) htog)
  obtain ⟨hok, -⟩ := amrWith_spec hF.cfg hs hask hu hf
  obtain ⟨qs, q1, -⟩ := place_some hF hok (placed_in_box hw.2)
  have hact : massAct massCase 2 0 (⟨s, ps⟩ : World 8 Bool) (.amr, noise 8) = some ⟨u, qs⟩ := by
    show ((massMarks massCase 2 0 (noise 8).order (⟨s, ps⟩ : World 8 Bool)).bind fun mk => (amrWith massCase.cfg mk s).bind
      fun s => (place massCase s.ranks ps).map fun ps => (⟨s, ps⟩ : World 8 Bool)) = _
    rw [m1, Option.bind_some, hu, Option.bind_some, q1]
    rfl
  have r3 : massRun massCase 2 0 0 [] (fun r : Fin 8 => if r = 5 then twoParts else []) [(.amr, noise 8)] = some ⟨u, qs⟩ := by
    rw [r0, List.foldlM_cons, hact]
    rfl
  obtain ⟨t', h1, h2⟩ := C110_serial_partial hF h8 0 [] rfl one one' r3
  exact ⟨⟨s, ps⟩, ⟨u, qs⟩, t', mk, hF, rfl, r0 [], m1, hk1, hk2, r3,
    fun c hc => C110_refines_partial hF h8 rfl 0 [] (as := []) (by simp) (r0 []) (noise_ok 8) hact hr1
      (show 2 < 4 by norm_num) (fun _ => show 0 < 4 by norm_num) hheavy hc, h1, h2,
    C110_mass_partial hF trivial (fun _ => rfl) (fun _ _ _ => rfl) (fun _ h => by cases h) h8 0 [] (as := []) one (r0 []) r3⟩

end Verif.Sim
