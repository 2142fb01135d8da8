import Verif.Sim.Props
import Verif.Run.Check
import Mathlib.Tactic.FinCases

/-!
# C85: a simulation that fails on two ranks only, and runs that meet the hypotheses
-/

namespace Verif.Sim

open Verif.Octree Verif.Cells Verif.Adapt Verif.Flux Verif.Hydro Verif.Hydro.OneNeighbor Verif.Refine Verif.Remap Verif.Run

/-- A gas at rest on 2x2 coarse octants of 2x2 cells; one octant is refined by the initial conditions. -/
def exRest : Config 2 ℚ Unit Unit ℚ where
  dom := ⟨fun _ => 0, fun _ => 1⟩
  grid := exGrid
  blk := fun _ => 2
  bits := 3
  lmax := 2
  need o _ := decide (o = ⟨1, ![0, 0]⟩)
  init _ _ _ := 1
  rate _ _ := 1
  lowest := 0
  maxReal := 1000
  cfl := 1 / 2
  tEnd := none
  toPrim u := u
  big := 1000
  recon _ q sl off _ := q () + sl 0 () * off 0
  flux _ _ _ _ := 0
  bflux _ _ _ _ _ _ := 0
  post _ _ v := v
  rho u := u ()
  errorMin := 1 / 10
  errorMax := 1 / 2
  depth := 1

theorem exRest_ok : exRest.Ok where
  dim := Or.inl rfl
  bits := by decide
  wf := exGrid_wf
  lmin := by decide
  lmax := by decide
  keys := by decide
  coarse := by decide
  blk := by decide
  cfl := by simp [exRest]
  depth := by decide

theorem exRest_rate (u : Unit → ℚ) (z : Fin 2 → ℚ) : 0 ≤ exRest.rate u z := zero_le_one

/-- Nothing moves. -/
theorem exRest_flux {M : Finset (Oct 2)} (hM : Tiling exGrid M) (hB : Balanced exGrid M)
    (U : Oct 2 → (Fin 2 → ℕ) → Unit → ℚ) (dt : ℚ) {o : Oct 2} (ho : o ∈ M) {x : Fin 2 → ℕ} (hx : ∀ k, x k < 2) (i : Unit) :
    gFlux exRest M U dt o x i = some (U o x i) := by
  have key : ∀ (H : Scheme 2 ℚ ℚ), (∀ j a b, H.flux j a b = 0) → (∀ o x j s, H.bflux o x j s = 0) →
      ∀ u : ℚ, updateCell H exRest.dom exGrid M dt u (cellAt (fun _ => 2) o x) = some u := by
    intro H h1 h2 u
    have hD : Domain.Ok exRest.dom := fun k => by simp [exRest]
    obtain ⟨a, h3, h4⟩ := updateCell_eq exGrid_wf.toPos hM hB (Or.inl rfl) hD H dt u (cellAt (fun _ => 2) o x) ho hx rfl
    have hz : ∀ j s, sideFlux H exRest.dom exGrid M (fun _ => 2) j s o x = 0 := by
      intro j s
      unfold sideFlux Scheme.riemann
      simp [h1, h2]
    have hv : (0 : ℚ) < volume exRest.dom (cellGrid exGrid fun _ => 2) (cellOct (fun _ => 2) o x) :=
      Finset.prod_pos fun k _ => cellSize_pos (cellGrid_pos exGrid_wf.toPos fun _ => by norm_num) hD _ k
    change _ * a = _ * u - dt * ∑ j, (sideFlux H exRest.dom exGrid M (fun _ => 2) j 1 o x -
      sideFlux H exRest.dom exGrid M (fun _ => 2) j (-1) o x) at h4
    simp only [hz, sub_self, Finset.sum_const_zero, mul_zero, sub_zero] at h4
    rw [h3, mul_left_cancel₀ (by exact_mod_cast hv.ne') h4]
  exact key _ (fun _ _ _ => rfl) (fun _ _ _ _ => rfl) _

/-- The run: initial conditions (`InitialConditions_analytical.h` L81-91: `adapt`, then `loadBalance()` with 0 compact
levels, once because there are two levels), a hydro step and an AMR cycle. -/
def exOps : List Op := [.initRefine, .loadBalance 0, .hydro, .amr]

/-- **C85**, disagreement. On one rank this run ends. On two ranks it does not: load balancing splits the family of small
octants, and the AMR cycle, which coarsens it, does not end. -/
theorem C85_more_ranks_never_end : (∃ t : State 2 1 ℚ Unit, simulate exRest 0 exOps = some t) ∧
    (simulate exRest 0 exOps : Option (State 2 2 ℚ Unit)) = none := by
  refine ⟨C85_serial_never_fails exRest_ok exRest_rate 0 exOps, ?_⟩
  have hC := exRest_ok
  have hP : 2 ≤ ∏ k, exRest.grid.coarse k := by decide
  obtain ⟨s0, e0, g0, -, d0, m0⟩ := startSim_spec (P := 2) hC hP 0
  have o0 : ∀ r : Fin 2, s0.ranks.octs r = (Partition.initLocal exGrid 2 r).getD [] := by
    unfold startSim start at e0
    split at e0
    · cases e0; intro r; rfl
    · cases e0
  -- initial conditions
  have hlev0 : ∀ a ∈ s0.ranks.mesh, a.level = 1 := fun a ha => ((m0 a).1 ha).1
  let mk0 : Oct 2 → ℤ := fun o => if o.level < exRest.lmax ∧ (cells exRest.blk).any (exRest.need o) = true then 1 else 0
  have hmk0 : ∀ o : Oct 2, o.level = 1 → mk0 o = exRefine o := by
    intro o ho
    have h1 : o.level < exRest.lmax := by rw [ho]; decide
    have h2 : (cells exRest.blk).any (exRest.need o) = decide (o = ⟨1, ![0, 0]⟩) := by
      by_cases h : o = ⟨1, ![0, 0]⟩
      · subst h; decide
      · rw [decide_eq_false h]
        simp [exRest, h]
    simp only [mk0, exRefine, h2, h1, true_and, decide_eq_true_eq]
  obtain ⟨hr0, hx0⟩ := init_requested hC g0
  have hmk : ∀ o, exRefine o = 0 ∨ exRefine o = 1 := fun o => by unfold exRefine; split <;> omega
  have a0 : Admissible exGrid s0.ranks.mesh mk0 := by
    refine ⟨fun a ha b hb _ => ?_, fun a ha h => ?_⟩
    · have ha1 := hlev0 a ha
      have hb1 := hlev0 b hb
      rw [hmk0 a ha1, hmk0 b hb1]
      have := hmk a
      have := hmk b
      omega
    · rw [hmk0 a (hlev0 a ha)] at h
      have := hmk a
      omega
  obtain ⟨f, hf, -, -, hok⟩ := adapt_spec hC.wf hC.bits hC.keys g0 hr0 hx0
  have hnew : ∀ r, newLeaves f (s0.ranks.octs r) = newLeaves exRefine ((Partition.initLocal exGrid 2 r).getD []) := by
    intro r
    rw [← o0]
    unfold newLeaves
    exact List.flatMap_congr fun a ha => by
      have hm : a ∈ s0.ranks.mesh := (mem_leaves _ _).2 ⟨r, ha⟩
      rw [hf.unique (LeastCorrection.refl a0) a hm, ← hmk0 a (hlev0 a hm)]
  obtain ⟨R1, e1, g1, o1, -⟩ := hok fun r => by
    rw [hnew]
    revert r
    decide +kernel
  have l1 : List.ofFn R1.octs = List.ofFn fun r : Fin 2 => newLeaves exRefine ((Partition.initLocal exGrid 2 r).getD []) := by
    congr 1
    funext r
    rw [o1, hnew]
  let s1 : State 2 2 ℚ Unit := ⟨R1, fun _ => exRest.init, s0.time⟩
  have E1 : step exRest s0 .initRefine = some s1 := by
    show initRefine exRest s0 = some s1
    unfold initRefine
    rw [e1]
    rfl
  -- load balancing
  obtain ⟨R2, e2, g2, m2⟩ := balance_spec hC.wf hC.bits hC.keys g1 0
  have l2 : List.ofFn R2.octs = [[⟨2, ![0, 0]⟩, ⟨2, ![1, 0]⟩, ⟨2, ![0, 1]⟩],
      [⟨2, ![1, 1]⟩, ⟨1, ![1, 0]⟩, ⟨1, ![0, 1]⟩, ⟨1, ![1, 1]⟩]] := by
    unfold Run.balance at e2
    rw [l1] at e2
    have : (Partition.loadBalance 3 2 0 (List.ofFn fun r : Fin 2 =>
        newLeaves exRefine ((Partition.initLocal exGrid 2 r).getD []))).map Prod.fst =
        some [[⟨2, ![0, 0]⟩, ⟨2, ![1, 0]⟩, ⟨2, ![0, 1]⟩],
          [⟨2, ![1, 1]⟩, ⟨1, ![1, 0]⟩, ⟨1, ![0, 1]⟩, ⟨1, ![1, 1]⟩]] := by decide +kernel
    cases hl : Partition.loadBalance 3 2 0 (List.ofFn fun r : Fin 2 =>
        newLeaves exRefine ((Partition.initLocal exGrid 2 r).getD [])) with
    | none => rw [hl] at this; cases this
    | some p =>
      rw [hl] at this
      change Option.map _ (Partition.loadBalance 3 2 0 _) = _ at e2
      rw [hl] at e2
      simp only [Option.map_some, Option.some.injEq] at this e2
      rw [← e2]
      simp only [this]
      decide
  let s2 : State 2 2 ℚ Unit := ⟨R2, fun _ o => s1.data (owner R1.octs o) o, s1.time⟩
  have E2 : step exRest s1 (.loadBalance 0) = some s2 := by
    show loadBalance exRest 0 s1 = some s2
    unfold loadBalance
    rw [e2]
    rfl
  -- hydro
  have hs2 : Ok exRest s2 := g2
  obtain ⟨s3, E3⟩ := Option.isSome_iff_exists.1 ((hydro_isSome hC.wf hs2).2
    (computeDt_isSome_of hC.cfl hs2 hC.blk exRest_rate))
  obtain ⟨dt, -, r3, -, d3⟩ := hydro_spec hC.wf hC.cfl hs2 E3
  have hs3 : Ok exRest s3 := by unfold Ok; rw [r3]; exact hs2
  have c3 : ∀ o ∈ s3.ranks.mesh, ∀ x : Fin 2 → ℕ, (∀ k, x k < 2) → s3.field o x = fun _ => 1 := by
    intro o ho x hx
    rw [r3] at ho
    unfold State.field
    rw [r3, d3 _ o (owner_mem _ ho) x hx]
    funext i
    change (gFlux exRest s2.ranks.mesh s2.field _ o x i).getD 0 = 1
    rw [exRest_flux hs2.tiling hs2.balanced _ _ ho hx]
    rfl
  have E : simulate exRest 0 [.initRefine, .loadBalance 0, .hydro] = some s3 := by
    unfold simulate
    rw [e0, Option.bind_some, List.foldlM_cons, E1]
    change List.foldlM (step exRest) s1 [.loadBalance 0, .hydro] = _
    rw [List.foldlM_cons, E2]
    change List.foldlM (step exRest) s2 [.hydro] = _
    rw [List.foldlM_cons, show step exRest s2 .hydro = some s3 from E3]
    rfl
  have hsim : (simulate exRest 0 exOps : Option (State 2 2 ℚ Unit)) = step exRest s3 .amr := by
    have : (exOps : List Op) = [.initRefine, .loadBalance 0, .hydro] ++ [.amr] := rfl
    unfold simulate at E ⊢
    rw [e0, Option.bind_some] at E ⊢
    rw [this, List.foldlM_append, E]
    change List.foldlM (step exRest) s3 [.amr] = _
    rw [List.foldlM_cons]
    cases step exRest s3 .amr <;> rfl
  rw [hsim]
  -- the AMR cycle
  have hm : s3.ranks.mesh = exMesh.toFinset := by
    rw [r3]
    change R2.mesh = _
    unfold Ranks.mesh leaves
    rw [l2]
    decide
  obtain ⟨mk, g, hmks, hg, hiff⟩ := ((C85_progress_partial hC hP 0).2 _ s3 E).2.2
  have hmkv : ∀ o ∈ s3.ranks.mesh, mk o = exBack o := by
    intro o ho
    have h1 := hmks o ho
    rw [rank_marks hC hs3 ho, Option.some.injEq] at h1
    rw [← h1]
    have hpg : ∀ x ∈ cells exRest.blk, pseudoGradient (fun o x => exRest.rho (s3.field o x)) exRest.grid s3.ranks.mesh
        exRest.blk exRest.errorMin exRest.errorMax o x = some (-1) := by
      intro x hx
      have hx' : ∀ k, x k < 2 := mem_cells.1 hx
      obtain ⟨m, h2, -, h3⟩ := C59_request hC.wf.toPos hs3.tiling hs3.balanced
        (fun o x => exRest.rho (s3.field o x)) ho (b := exRest.blk) hx' (errorMin := exRest.errorMin)
        (errorMax := exRest.errorMax) (by simp [exRest]) (by simp [exRest])
      rw [h2, h3 fun o' ho' y hy => by simp only [c3 o' ho' y hy, c3 o ho x hx']]
    have hml : (cells exRest.blk).mapM (fun x => pseudoGradient (fun o x => exRest.rho (s3.field o x)) exRest.grid
        s3.ranks.mesh exRest.blk exRest.errorMin exRest.errorMax o x) = some [-1, -1, -1, -1] := by
      rw [mapM_eq_some, List.map_congr_left hpg]
      decide
    unfold gMark marker
    change ((Option.map _ ((cells exRest.blk).mapM fun x => pseudoGradient _ _ _ _ _ _ o x)).getD 0) = _
    rw [hml]
    have hl : o.level = 1 ∨ o.level = 2 := by have := hs3.levels o ho; change 1 ≤ _ ∧ _ ≤ 2 at this; omega
    simp only [Option.map_some, Option.getD_some]
    change Refine.adjust 1 2 o.level (-1) = exBack o
    unfold exBack
    rcases hl with h | h <;> rw [h] <;> decide
  have hgb : ∀ o ∈ s3.ranks.mesh, g o = exBack o := by
    refine fun o ho => hg.unique ?_ o ho
    rw [hm]
    exact LeastCorrection.congr exBack_least fun o ho => (hmkv o (by rw [hm]; exact ho)).symm
  cases ha : step exRest s3 .amr with
  | none => rfl
  | some t =>
    exfalso
    have hT := hiff.1 ⟨t, ha⟩
    have h1 : (⟨2, ![0, 0]⟩ : Oct 2) ∈ s3.ranks.mesh := by rw [hm]; decide
    have h2 := hT _ h1 (by rw [hgb _ h1]; decide) ⟨2, ![1, 1]⟩ ⟨rfl, by decide⟩
    have hoct : ∀ r : Fin 2, s3.ranks.octs r = ([[⟨2, ![0, 0]⟩, ⟨2, ![1, 0]⟩, ⟨2, ![0, 1]⟩],
      [⟨2, ![1, 1]⟩, ⟨1, ![1, 0]⟩, ⟨1, ![0, 1]⟩, ⟨1, ![1, 1]⟩]] : List (List (Oct 2))).getD r [] := by
      intro r
      rw [r3]
      change R2.octs r = _
      rw [← l2, List.getD_eq_getElem _ _ (by rw [List.length_ofFn]; exact r.2), List.getElem_ofFn]
    have h3 : owner s3.ranks.octs ⟨2, ![0, 0]⟩ = 0 := hs3.rank_unique (owner_mem _ h1) (by rw [hoct]; decide)
    have h4 : owner s3.ranks.octs ⟨2, ![1, 1]⟩ = 1 :=
      hs3.rank_unique (owner_mem _ (show _ ∈ s3.ranks.mesh by rw [hm]; decide)) (by rw [hoct]; decide)
    rw [h3, h4] at h2
    exact absurd h2 (by decide)

/-! ### Cases that meet the hypotheses -/

/-- Advection in a periodic box of 4x4 coarse octants of 2x2 cells and up to three levels; cells near the lower left corner
are refined. -/
def exAdvect : Config 2 ℚ Unit Unit ℚ where
  dom := ⟨fun _ => 0, fun _ => 1⟩
  grid := ⟨2, fun _ => 4, fun _ => true⟩
  blk := fun _ => 2
  bits := 3
  lmax := 4
  need o _ := decide (∀ k, o.pos k = 0)
  init o x _ := if o.pos 0 = 0 ∧ x 0 = 0 then 2 else 1
  rate _ z := |1 / z 0|
  lowest := 0
  maxReal := 1000
  cfl := 1 / 2
  tEnd := some 1
  toPrim u := u
  big := 1000
  recon _ q sl off z := q () + sl 0 () * off 0 * z 0 / 2
  flux j l _ _ := if j = 0 then l else 0
  bflux _ _ _ _ _ _ := 0
  post _ _ v := v
  rho u := u ()
  errorMin := 1 / 10
  errorMax := 1 / 5
  depth := 1

theorem exAdvect_ok : exAdvect.Ok where
  dim := Or.inl rfl
  bits := by decide
  wf := ⟨⟨by decide⟩, by decide⟩
  lmin := by decide
  lmax := by decide
  keys := by decide
  coarse := by decide
  blk := by decide
  cfl := by simp [exAdvect]
  depth := by decide

/-- C85 (no load balancing, same result, conservation): a run on eight ranks ends, with the result of one rank, and the
integral does not change after the initial conditions. -/
example : ∃ (s t : State 2 8 ℚ Unit) (t' : State 2 1 ℚ Unit),
    simulate exAdvect 0 [.initRefine, .initRefine] = some s ∧
    simulate exAdvect 0 ([.initRefine, .initRefine] ++ [.hydro, .amr, .hydro, .amr]) = some t ∧
    simulate exAdvect 0 ([.initRefine, .initRefine] ++ [.hydro, .amr, .hydro, .amr]) = some t' ∧
    Same exAdvect.blk t t' ∧ total exAdvect t () = total exAdvect s () := by
  have hP : 8 ≤ ∏ k, exAdvect.grid.coarse k := by decide
  have hr : ∀ u z, 0 ≤ exAdvect.rate u z := fun _ _ => abs_nonneg _
  obtain ⟨s, hs⟩ := C85_without_balancing (P := 8) exAdvect_ok hP hr 0 [.initRefine, .initRefine] (by simp)
  obtain ⟨t, ht⟩ := C85_without_balancing (P := 8) exAdvect_ok hP hr 0
    ([.initRefine, .initRefine] ++ [.hydro, .amr, .hydro, .amr]) (by simp)
  obtain ⟨t', ht', hsame⟩ := C85_serial exAdvect_ok hP 0 _ ht
  exact ⟨s, t, t', hs, ht, ht', hsame, C85_conserved exAdvect_ok (fun k => by simp [exAdvect]) (fun _ => rfl) hP
    (fun _ _ _ => rfl) 0 _ _ (by simp) hs ht⟩

/-- C85 (load balancing): at the start no coarse octant has more leaves than the share of a rank, so that load balancing
with two compact levels does not split any. -/
example : ∃ s t : State 2 8 ℚ Unit, simulate exAdvect 0 [] = some s ∧ step exAdvect s (.loadBalance 2) = some t ∧
    Whole exAdvect.grid t.ranks := by
  have hP : 8 ≤ ∏ k, exAdvect.grid.coarse k := by decide
  obtain ⟨s, e, hs, -, -, m⟩ := startSim_spec (P := 8) exAdvect_ok hP (0 : ℚ)
  have hsim : simulate exAdvect 0 [] = some s := by unfold simulate; rw [e]; rfl
  have hl : ∀ o ∈ s.ranks.mesh, o.level = 2 := fun o ho => ((m o).1 ho).1
  have hsmall : Small 8 s.ranks.mesh (exAdvect.lmax - 2) := by
    intro c hc F hF hx
    have hsub : F ⊆ {c} := fun x hxF => by
      rw [Finset.mem_singleton]
      exact ((hx x hxF).eq_of_level (hc.trans (hl x (hF hxF)).symm)).symm
    have h1 : F.card ≤ 1 := (Finset.card_le_card hsub).trans (by simp)
    have h2 : 8 ≤ s.ranks.mesh.card := by
      have hin : ((Finset.range 4 ×ˢ Finset.range 2).image fun p : ℕ × ℕ => (⟨2, ![p.1, p.2]⟩ : Oct 2)) ⊆ s.ranks.mesh := by
        intro o ho
        obtain ⟨p, hp, rfl⟩ := Finset.mem_image.1 ho
        rw [Finset.mem_product, Finset.mem_range, Finset.mem_range] at hp
        refine (m _).2 ⟨rfl, fun i => ?_⟩
        fin_cases i
        · exact hp.1
        · exact lt_of_lt_of_le hp.2 (by decide)
      exact le_trans (by decide) (Finset.card_le_card hin)
    omega
  obtain ⟨t, ht, hw⟩ := (C85_whole_never_fails exAdvect_ok hP (fun _ _ => abs_nonneg _) 0 [] hsim
    (whole_start hs hl)).2 2 (by decide) (by decide) hsmall
  exact ⟨s, t, hsim, ht, hw⟩

end Verif.Sim
