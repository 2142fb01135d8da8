import Verif.Legacy.Runs

/-!
# C111: a run with the older refinement criterion
-/

namespace Verif.Legacy

open Verif.Octree Verif.Cells Verif.Run Verif.Legacy.Spec Verif.Adapt
open Verif.Remap (Together)
open Verif.Sim (Op Ok Same Asked amrWith Own)

noncomputable section

/-- A periodic box of 2x2 octants of 4x4 cells with the spot of C95; the density moves to the right. -/
def oldCfg : Sim.Config 2 ℝ (Var 2) Unit ℝ where
  dom := ⟨fun _ => 0, fun _ => 1⟩
  grid := ⟨1, ![2, 2], fun _ => true⟩
  blk := fun _ => 4
  bits := 3
  lmax := 2
  need _ _ := false
  init := spotGas
  rate _ _ := 1
  lowest := 0
  maxReal := 1000
  cfl := 1
  tEnd := none
  toPrim u _ := u .rho
  big := 1000
  recon _ q _ _ _ := q ()
  flux j l _ v := if j = 0 ∧ v = .rho then l else 0
  bflux _ _ _ _ _ _ := 0
  post _ _ v := v
  rho u := u .rho
  errorMin := 1 / 10
  errorMax := 1 / 5
  depth := 1

theorem oldCfg_ok : oldCfg.Ok where
  dim := Or.inl rfl
  bits := show 2 ≤ 3 by decide
  wf := ⟨⟨show ∀ i : Fin 2, 0 < (![2, 2] : Fin 2 → ℕ) i by decide⟩, show ∀ i : Fin 2, (![2, 2] : Fin 2 → ℕ) i ≤ 2 ^ 1 by decide⟩
  lmin := le_refl 1
  lmax := show 1 ≤ 2 by decide
  keys := show 3 * 2 < 64 by decide
  coarse := show ∏ i : Fin 2, (![2, 2] : Fin 2 → ℕ) i < 2 ^ 32 by decide
  blk := fun _ => show 0 < 4 by decide
  cfl := one_pos
  depth := show 0 < 1 by decide

/-- Groups of `n` octants. -/
def oldCond (n : ℕ) : Old 2 :=
  ⟨fun _ => .periodic, fun _ => .periodic, ⟨2, 1 / 1000, 1 / 1000, 1 / 1000⟩, 1 / 10 ^ 16, -1, 1 / 5, 4 / 5, n⟩

theorem oldCond_ok {n : ℕ} (hn : 0 < n) : (oldCond n).Ok oldCfg where
  eps := by norm_num [oldCond]
  lowest := by norm_num [oldCond]
  group := hn
  blocks := fun _ => show 4 ≤ 4 ∧ 2 ∣ 4 by decide
  size := show ∏ _ : Fin 2, (4 + 4) ≤ 2 ^ 32 by decide
  periodic := fun _ => ⟨iff_of_true rfl rfl, iff_of_true rfl rfl⟩
  known := fun _ => ⟨by simp [oldCond], by simp [oldCond]⟩

/-- Threads from the last to the first cell; new arrays contain `c`. -/
def oldNoise (N n : ℕ) (c : ℝ) : OldNoise 2 N :=
  ⟨fun _ m => exSched ((oldCond n).par oldCfg) ((oldCond n).marks oldCfg) m, fun _ => ⟨fun _ _ _ => c, fun _ _ _ => c, []⟩⟩

theorem oldNoise_ok (N n : ℕ) (c : ℝ) : (oldNoise N n c).Ok oldCfg (oldCond n) := fun _ _ => exSched_ok _ _ _

theorem few_octants {N : ℕ} [NeZero N] {s : Sim.State 2 N ℝ (Var 2)} (hs : Ok oldCfg s) : s.ranks.mesh.card ≤ 192 := by
  have hsub : s.ranks.mesh ⊆ (Finset.univ : Finset (Fin 3 × Fin 8 × Fin 8)).image
      fun q => (⟨q.1, ![q.2.1.1, q.2.2.1]⟩ : Oct 2) := by
    intro o ho
    obtain ⟨l, p⟩ := o
    have hl : l ≤ 2 := (hs.levels _ ho).2
    have hp : ∀ i, p i < 8 := fun i => by
      have h1 := (hs.tiling.valid _ ho).2 i
      have h2 : oldCfg.grid.count i l ≤ 2 * 2 ^ 1 := Nat.mul_le_mul (show (![2, 2] : Fin 2 → ℕ) i ≤ 2 by
        clear h1; revert i; decide) (Nat.pow_le_pow_right (by norm_num) (show l - 1 ≤ 1 by omega))
      exact lt_of_lt_of_le h1 (h2.trans (by norm_num))
    refine Finset.mem_image.2 ⟨(⟨l, by omega⟩, ⟨p 0, hp 0⟩, ⟨p 1, hp 1⟩), Finset.mem_univ _, ?_⟩
    congr 1
    funext i
    match i with
    | 0 => rfl
    | 1 => rfl
  exact (Finset.card_le_card hsub).trans (Finset.card_image_le.trans (by simp))

def spot : Oct 2 := ⟨1, ![1, 0]⟩

/-- The octant of the spot is rough. -/
theorem spot_rough {s : Sim.State 2 4 ℝ (Var 2)} (hs : Ok oldCfg s) {r : Fin 4} (hr : spot ∈ s.ranks.octs r) (n : ℕ) :
    Rough oldCfg.blk (oldCond n).eps (oldCond n).errorMax
      (gasOf ((oldCond n).par oldCfg) (oldCond n).rp s.ranks.mesh spotGas spot) := by
  have ha := Sim.around oldCfg_ok.wf hs hr
  have hb : ∀ k, 4 ≤ ((oldCond n).par oldCfg).b k ∧ 2 ∣ ((oldCond n).par oldCfg).b k := fun _ => show 4 ≤ 4 ∧ 2 ∣ 4 by decide
  have hper : PeriodicOk ((oldCond n).par oldCfg) := fun _ => ⟨iff_of_true rfl rfl, iff_of_true rfl rfl⟩
  have hv : ∀ p : Fin 2 → ℤ, (∀ i, 0 ≤ p i ∧ p i < 4) →
      gasOf ((oldCond n).par oldCfg) (oldCond n).rp s.ranks.mesh spotGas spot p .rho =
        if (fun i => (p i).toNat) = ![2, 2] then 100 else 1 := by
    intro p hp
    rw [gasOf_inner (P := (oldCond n).par oldCfg) oldCfg_ok.wf.toPos ha.tiling ha.balanced (Sim.mem_mesh hr) rfl hb hper
      (oldCond n).rp spotGas hp]
    simp only [toPrim, HV.var, spotGas, spot, true_and]
    split <;> norm_num [oldCond]
  refine ⟨![2, 2], show ∀ i : Fin 2, 0 ≤ (![2, 2] : Fin 2 → ℤ) i ∧ (![2, 2] : Fin 2 → ℤ) i < 4 by decide, .rho, Or.inl rfl, 0, ?_⟩
  rw [hv _ (by decide), hv _ (by decide), hv _ (by decide), if_neg (by decide), if_pos (by decide), if_neg (by decide)]
  norm_num [curvature, oldCond]

/-- Four ranks and groups of two octants: the octant of the spot is marked and cut, then the gas moves; on one rank, with
groups of three octants and other contents of new arrays, the run ends with the same mesh and values. The mass stays. -/
example : ∃ (s u t : Sim.State 2 4 ℝ (Var 2)) (t' : Sim.State 2 1 ℝ (Var 2)) (mk : Oct 2 → ℤ),
    oldRun oldCfg (oldCond 2) 0 [] = some s ∧ oldMarks oldCfg (oldCond 2) (oldNoise 4 2 7) s = some mk ∧ mk spot = 1 ∧
    oldRun oldCfg (oldCond 2) 0 [(.amr, oldNoise 4 2 7)] = some u ∧
    (∀ c : Oct 2, c.level = 2 → (∀ k, c.pos k / 2 = spot.pos k) → ∃ r, c ∈ u.ranks.octs r) ∧
    oldRun oldCfg (oldCond 2) 0 [(.amr, oldNoise 4 2 7), (.hydro, oldNoise 4 2 0)] = some t ∧
    oldRun oldCfg (oldCond 3) 0 [(.amr, oldNoise 1 3 9), (.hydro, oldNoise 1 3 1)] = some t' ∧ Same oldCfg.blk t t' ∧
    Sim.total oldCfg t .rho = Sim.total oldCfg s .rho := by
  have h4 : 4 ≤ ∏ k, oldCfg.grid.coarse k := show 4 ≤ ∏ i : Fin 2, (![2, 2] : Fin 2 → ℕ) i by decide
  have hC := oldCfg_ok
  have hA := oldCond_ok (n := 2) (by norm_num)
  obtain ⟨s, es, hs, -, s2, s3⟩ := Sim.startSim_spec (P := 4) hC h4 0
  have r0 : ∀ ops, oldRun oldCfg (oldCond 2) 0 ops = ops.foldlM (oldStep oldCfg (oldCond 2)) s := fun ops => by
    unfold oldRun
    rw [es, Option.bind_some]
  have hcard := few_octants hs
  have hlen : ∀ r, (s.ranks.octs r).length + (oldCond 2).perGroup ≤ 2 ^ 32 := by
    intro r
    have k1 := octs_card hs
    have k2 := Finset.single_le_sum (f := fun r => (s.ranks.octs r).length) (fun _ _ => Nat.zero_le _) (Finset.mem_univ r)
    have k3 : (oldCond 2).perGroup = 2 := rfl
    omega
  have hown : ∀ r, ∀ o ∈ s.ranks.octs r, ∀ x : Fin 2 → ℕ, (∀ k, x k < oldCfg.blk k) → s.data r o x = spotGas o x :=
    fun _ _ _ _ _ => by rw [s2]; rfl
  obtain ⟨r1, hr1⟩ := (mem_leaves _ _).1 ((s3 spot).2 ⟨rfl, show ∀ i : Fin 2, (![1, 0] : Fin 2 → ℕ) i < (![2, 2] : Fin 2 → ℕ) i by decide⟩)
  have hz := oldNoise_ok 4 2 7
  obtain ⟨mk, m1, m2⟩ := C111_marks hC hA h4 0 (ops := []) (by simp) (r0 []) hz hlen hown
  have hrough := spot_rough hs hr1 2
  have hk := (oldMarks_spec hC hA hz hs hown).2 mk m1
  have hk1 : mk spot = 1 := (hk spot (Sim.mem_mesh hr1)).1.2 ⟨show 1 < 2 by norm_num, hrough⟩
  have hlev : ∀ o ∈ s.ranks.mesh, o.level = 1 := fun o ho => ((s3 o).1 ho).1
  have hask := oldMarks_asked hC hA hz hs m1
  have hpos : ∀ o ∈ s.ranks.mesh, 0 ≤ mk o := by
    intro o ho
    obtain ⟨a1, -, a3, -⟩ := hask o ho
    by_contra hneg
    have := a3 (by omega)
    rw [hlev o ho] at this
    exact absurd this (show ¬ 1 < 1 by norm_num)
  obtain ⟨hreq, hmax⟩ := Sim.requested_of hC hs hask
  obtain ⟨f, hf, hf1, -⟩ := adapt_spec hC.wf hC.bits hC.keys hs hreq hmax
  have htog : Together s.ranks.mesh f (owner s.ranks.octs) := fun a ha h => by
    have := hf.1 a ha
    have := hpos a ha
    omega
  obtain ⟨u, hu⟩ := Option.isSome_iff_exists.1 (Sim.amrWith_isSome hC hs hask hf (keeps_octant hs hf.2.1 hf1 htog) htog)
  obtain ⟨hok, -⟩ := Sim.amrWith_spec hC hs hask hu hf
  have hstep : oldStep oldCfg (oldCond 2) s (.amr, oldNoise 4 2 7) = some u := by
    show (oldMarks oldCfg (oldCond 2) (oldNoise 4 2 7) s).bind _ = _
    rw [m1, Option.bind_some, hu]
  obtain ⟨t, ht⟩ := Option.isSome_iff_exists.1
    ((Sim.hydro_isSome hC.wf hok).2 (Sim.computeDt_isSome_of hC.cfl hok hC.blk fun _ _ => zero_le_one))
  have ru : oldRun oldCfg (oldCond 2) 0 [(.amr, oldNoise 4 2 7)] = some u := by
    rw [r0, List.foldlM_cons, hstep]; rfl
  have rt : oldRun oldCfg (oldCond 2) 0 [(.amr, oldNoise 4 2 7), (.hydro, oldNoise 4 2 0)] = some t := by
    rw [r0, List.foldlM_cons, hstep]
    show (List.foldlM (oldStep oldCfg (oldCond 2)) u [(Op.hydro, oldNoise 4 2 0)]) = _
    rw [List.foldlM_cons, show oldStep oldCfg (oldCond 2) u (.hydro, oldNoise 4 2 0) = some t from ht]
    rfl
  have ho : ∀ a ∈ [((.amr : Op), oldNoise 4 2 7), (.hydro, oldNoise 4 2 0)], a.2.Ok oldCfg (oldCond 2) := by
    simp [oldNoise_ok]
  have ho' : ∀ a ∈ [((.amr : Op), oldNoise 1 3 9), (.hydro, oldNoise 1 3 1)], a.2.Ok oldCfg (oldCond 3) := by
    simp [oldNoise_ok]
  obtain ⟨t', h1, h2⟩ := C111_serial (A := oldCond 2) (n := 2) (n' := 3) hC hA (by norm_num) h4 0 rfl ho ho' (by
    intro k w hw
    have hw' := oldRun_ok hC hA h4 (fun a ha => ho a (List.mem_of_mem_take ha)) hw
    rw [octs_card hw']
    have := few_octants hw'
    omega) rt
  exact ⟨s, u, t, t', mk, r0 [], m1, hk1, ru, fun c hc hp => C111_refines hC hA h4 0 (ops := []) (by simp) (r0 []) hz hstep
      hown hr1 (show 1 < 2 by norm_num)
      (gasOf_around (P := (oldCond 2).par oldCfg) hC.wf hs rfl hA.blocks hA.periodic hA.known _ spotGas hr1) hrough hc hp,
    rt, h1, h2, C111_conserved hC (fun _ => show (0 : ℚ) < 1 by norm_num) (fun _ => rfl) hA h4 (fun _ _ _ => rfl) 0 (ops := [])
      ho (by simp) (r0 []) rt⟩

end

end Verif.Legacy
