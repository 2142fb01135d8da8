import Verif.Sim.Restart
import Verif.Sim.Check

/-!
# C87: restarts that fail, and cases that meet the hypotheses
-/

namespace Verif.Sim

open Verif.Octree Verif.Cells Verif.Adapt Verif.Hydro Verif.Hydro.OneNeighbor Verif.Refine Verif.Run Verif.Io Verif.Restart
open Verif.TimeLoop Verif.Remap

/-! ### A restart on more ranks -/

/-- The leaves of the two ranks after load balancing. -/
def exSplit : List (List (Oct 2)) := [[⟨2, ![0, 0]⟩, ⟨2, ![1, 0]⟩, ⟨2, ![0, 1]⟩],
  [⟨2, ![1, 1]⟩, ⟨1, ![1, 0]⟩, ⟨1, ![0, 1]⟩, ⟨1, ![1, 1]⟩]]

theorem exSplit_of {R0 R1 R2 : Ranks 2 2} (e0 : start 3 exGrid = some R0) {mk : Oct 2 → ℤ}
    (hmk : ∀ a ∈ R0.mesh, mk a = exRefine a) (e1 : adapt 3 2 exGrid mk R0 = some R1)
    (e2 : Run.balance 3 2 exGrid 0 R1 = some R2) : List.ofFn R2.octs = exSplit := by
  have hC := exRest_ok
  obtain ⟨R0', e0', g0, m0⟩ := start_spec (P := 2) (e := 3) (L := 2) hC.wf (by decide) (by decide) (by decide) hC.coarse
    (by decide)
  change start 3 exGrid = some R0' at e0'
  rw [e0] at e0'
  cases e0'
  have o0 : ∀ r : Fin 2, R0.octs r = (Partition.initLocal exGrid 2 r).getD [] := by
    unfold start at e0
    split at e0
    · cases e0; intro r; rfl
    · cases e0
  have hlev0 : ∀ a ∈ R0.mesh, a.level = 1 := fun a ha => ((m0 a).1 ha).1
  have hm : ∀ o, exRefine o = 0 ∨ exRefine o = 1 := fun o => by unfold exRefine; split <;> omega
  have hreq := requested_of hC g0 (mk := mk) fun o ho => by
    have h1 := hlev0 o ho
    rw [hmk o ho, h1]
    change _ ∧ _ ∧ (_ → 1 < 1) ∧ (_ → 1 < 2)
    have := hm o
    exact ⟨by omega, by omega, fun h => by omega, fun h => by omega⟩
  have a0 : Admissible exGrid R0.mesh mk := by
    refine ⟨fun a ha b hb _ => ?_, fun a ha h => ?_⟩
    · have ha1 := hlev0 a ha
      have hb1 := hlev0 b hb
      rw [hmk a ha, hmk b hb]
      have := hm a
      have := hm b
      omega
    · rw [hmk a ha] at h
      have := hm a
      omega
  obtain ⟨-, o1, -⟩ := adapt_some hC g0 hreq.1 hreq.2 e1 (LeastCorrection.refl a0)
  have l1 : List.ofFn R1.octs = List.ofFn fun r : Fin 2 => newLeaves exRefine ((Partition.initLocal exGrid 2 r).getD []) := by
    congr 1
    funext r
    rw [o1, ← o0]
    unfold newLeaves
    exact List.flatMap_congr fun a ha => by rw [hmk a ((mem_leaves _ _).2 ⟨r, ha⟩)]
  unfold Run.balance at e2
  rw [l1] at e2
  have : (Partition.loadBalance 3 2 0 (List.ofFn fun r : Fin 2 =>
      newLeaves exRefine ((Partition.initLocal exGrid 2 r).getD []))).map Prod.fst = some exSplit := by decide +kernel
  cases hl : Partition.loadBalance 3 2 0 (List.ofFn fun r : Fin 2 =>
      newLeaves exRefine ((Partition.initLocal exGrid 2 r).getD [])) with
  | none => rw [hl] at this; cases this
  | some p =>
    rw [hl] at this e2
    simp only [Option.map_some, Option.some.injEq] at this e2
    rw [← e2]
    simp only [this]
    decide

/-- A hydro step of the gas at rest. -/
theorem exRest_hydro {P : ℕ} [NeZero P] {s : State 2 P ℚ Unit} (hs : Ok exRest s)
    (hone : ∀ o ∈ s.ranks.mesh, ∀ x : Fin 2 → ℕ, (∀ k, x k < 2) → s.field o x = fun _ => 1) :
    ∃ t, hydro exRest s = some t ∧ t.ranks = s.ranks ∧ Ok exRest t ∧
      ∀ o ∈ t.ranks.mesh, ∀ x : Fin 2 → ℕ, (∀ k, x k < 2) → t.field o x = fun _ => 1 := by
  have hC := exRest_ok
  obtain ⟨t, E⟩ := Option.isSome_iff_exists.1 ((hydro_isSome hC.wf hs).2
    (computeDt_isSome_of hC.cfl hs hC.blk exRest_rate))
  obtain ⟨dt, -, r3, -, d3⟩ := hydro_spec hC.wf hC.cfl hs E
  refine ⟨t, E, r3, by unfold Ok; rw [r3]; exact hs, fun o ho x hx => ?_⟩
  rw [r3] at ho
  unfold State.field
  rw [r3, d3 _ o (owner_mem _ ho) x hx]
  funext i
  change (gFlux exRest s.ranks.mesh s.field _ o x i).getD 0 = 1
  rw [exRest_flux hs.tiling hs.balanced _ _ ho hx, hone o ho x hx]
  rfl

/-- The AMR cycle coarsens everything that is fine. -/
theorem exRest_marks {P : ℕ} [NeZero P] {s : State 2 P ℚ Unit} (hs : Ok exRest s)
    (hone : ∀ o ∈ s.ranks.mesh, ∀ x : Fin 2 → ℕ, (∀ k, x k < 2) → s.field o x = fun _ => 1)
    (hm : s.ranks.mesh = exMesh.toFinset) :
    LeastCorrection exRest.grid s.ranks.mesh (gMark exRest s.ranks.mesh s.field) exBack := by
  have hC := exRest_ok
  have hmkv : ∀ o ∈ s.ranks.mesh, gMark exRest s.ranks.mesh s.field o = exBack o := by
    intro o ho
    have hpg : ∀ x ∈ cells exRest.blk, pseudoGradient (fun o x => exRest.rho (s.field o x)) exRest.grid s.ranks.mesh
        exRest.blk exRest.errorMin exRest.errorMax o x = some (-1) := by
      intro x hx
      have hx' : ∀ k, x k < 2 := mem_cells.1 hx
      obtain ⟨m, h2, -, h3⟩ := C59_request hC.wf.toPos hs.tiling hs.balanced
        (fun o x => exRest.rho (s.field o x)) ho (b := exRest.blk) hx' (errorMin := exRest.errorMin)
        (errorMax := exRest.errorMax) (by simp [exRest]) (by simp [exRest])
      rw [h2, h3 fun o' ho' y hy => by simp only [hone o' ho' y hy, hone o ho x hx']]
    have hml : (cells exRest.blk).mapM (fun x => pseudoGradient (fun o x => exRest.rho (s.field o x)) exRest.grid
        s.ranks.mesh exRest.blk exRest.errorMin exRest.errorMax o x) = some [-1, -1, -1, -1] := by
      rw [mapM_eq_some, List.map_congr_left hpg]
      decide
    unfold gMark marker
    change ((Option.map _ ((cells exRest.blk).mapM fun x => pseudoGradient _ _ _ _ _ _ o x)).getD 0) = _
    rw [hml]
    have hl : o.level = 1 ∨ o.level = 2 := by have := hs.levels o ho; change 1 ≤ _ ∧ _ ≤ 2 at this; omega
    simp only [Option.map_some, Option.getD_some]
    change Refine.adjust 1 2 o.level (-1) = exBack o
    unfold exBack
    rcases hl with h | h <;> rw [h] <;> decide
  rw [hm] at hmkv ⊢
  exact LeastCorrection.congr exBack_least fun o ho => (hmkv o ho).symm

/-- If the family is split the AMR cycle does not end. -/
theorem exRest_amr_fails {s : State 2 2 ℚ Unit} (hs : Ok exRest s)
    (hone : ∀ o ∈ s.ranks.mesh, ∀ x : Fin 2 → ℕ, (∀ k, x k < 2) → s.field o x = fun _ => 1)
    (hl : List.ofFn s.ranks.octs = exSplit) : amr exRest s = none := by
  have hm : s.ranks.mesh = exMesh.toFinset := by
    unfold Ranks.mesh leaves
    rw [hl]
    decide
  cases ha : amr exRest s with
  | none => rfl
  | some t =>
    exfalso
    obtain ⟨-, -, -, -, hT, -⟩ := amr_spec exRest_ok hs ha (exRest_marks hs hone hm)
    have h1 : (⟨2, ![0, 0]⟩ : Oct 2) ∈ s.ranks.mesh := by rw [hm]; decide
    have h2 := hT inferInstance _ h1 (by decide) ⟨2, ![1, 1]⟩ ⟨rfl, by decide⟩
    have hoct : ∀ r : Fin 2, s.ranks.octs r = exSplit.getD r [] := by
      intro r
      rw [← hl, List.getD_eq_getElem _ _ (by rw [List.length_ofFn]; exact r.2), List.getElem_ofFn]
    have h3 : owner s.ranks.octs ⟨2, ![0, 0]⟩ = 0 := hs.rank_unique (owner_mem _ h1) (by rw [hoct]; decide)
    have h4 : owner s.ranks.octs ⟨2, ![1, 1]⟩ = 1 :=
      hs.rank_unique (owner_mem _ (show _ ∈ s.ranks.mesh by rw [hm]; decide)) (by rw [hoct]; decide)
    rw [h3, h4] at h2
    exact absurd h2 (by decide)

/-- The initial state of the gas at rest on one rank. -/
theorem exRest_serial : ∃ s : State 2 1 ℚ Unit, simulate exRest 0 [.initRefine] = some s ∧ Ok exRest s ∧
    (∀ o ∈ s.ranks.mesh, ∀ x : Fin 2 → ℕ, (∀ k, x k < 2) → s.field o x = fun _ => 1) ∧
    s.ranks.mesh = exMesh.toFinset := by
  have hC := exRest_ok
  obtain ⟨s0, e0, g0, -, -, m0⟩ := startSim_spec (P := 1) hC (by decide) (0 : ℚ)
  obtain ⟨t, h1⟩ := C85_serial_never_fails exRest_ok exRest_rate 0 [.initRefine]
  have hok := simulate_ok hC (by decide) h1
  have h2 := h1
  unfold simulate at h2
  rw [e0, Option.bind_some, List.foldlM_cons] at h2
  obtain ⟨s1, h3, h2⟩ := Option.bind_eq_some_iff.1 h2
  cases h2
  unfold step initRefine at h3
  obtain ⟨R, h4, rfl⟩ := Option.map_eq_some_iff.1 h3
  refine ⟨_, h1, hok, fun _ _ _ _ => rfl, ?_⟩
  obtain ⟨hr, hx⟩ := init_requested hC g0
  have hlev0 : ∀ a ∈ s0.ranks.mesh, a.level = 1 := fun a ha => ((m0 a).1 ha).1
  have hmk0 : ∀ o : Oct 2, o.level = 1 →
      (if o.level < exRest.lmax ∧ (cells exRest.blk).any (exRest.need o) = true then (1 : ℤ) else 0) = exRefine o := by
    intro o ho
    have h1 : o.level < exRest.lmax := by rw [ho]; decide
    have h2 : (cells exRest.blk).any (exRest.need o) = decide (o = ⟨1, ![0, 0]⟩) := by
      by_cases h : o = ⟨1, ![0, 0]⟩
      · subst h; decide
      · rw [decide_eq_false h]
        simp [exRest, h]
    simp only [exRefine, h2, h1, true_and, decide_eq_true_eq]
  have hm : ∀ o, exRefine o = 0 ∨ exRefine o = 1 := fun o => by unfold exRefine; split <;> omega
  have a0 : Admissible exGrid s0.ranks.mesh
      (fun o => if o.level < exRest.lmax ∧ (cells exRest.blk).any (exRest.need o) = true then (1 : ℤ) else 0) := by
    refine ⟨fun a ha b hb _ => ?_, fun a ha h => ?_⟩
    · have ha1 := hlev0 a ha
      have hb1 := hlev0 b hb
      simp only [hmk0 a ha1, hmk0 b hb1]
      have := hm a
      have := hm b
      omega
    · simp only [hmk0 a (hlev0 a ha)] at h
      have := hm a
      omega
  rw [(adapt_some hC g0 hr hx h4 (LeastCorrection.refl a0)).2.2]
  have e1 : s0.ranks.mesh = ({⟨1, ![0, 0]⟩, ⟨1, ![1, 0]⟩, ⟨1, ![0, 1]⟩, ⟨1, ![1, 1]⟩} : Finset (Oct 2)) := by
    ext o
    rw [m0]
    obtain ⟨l, p⟩ := o
    simp only [Finset.mem_insert, Finset.mem_singleton, Oct.mk.injEq]
    constructor
    · rintro ⟨h1, h2⟩
      have h3 := h2 0
      have h4 := h2 1
      change p 0 < 2 at h3
      change p 1 < 2 at h4
      have hp : p = ![p 0, p 1] := by funext i; fin_cases i <;> rfl
      change l = 1 at h1
      have a3 : p 0 = 0 ∨ p 0 = 1 := by omega
      have a4 : p 1 = 0 ∨ p 1 = 1 := by omega
      rcases a3 with a | a <;> rcases a4 with b | b <;> rw [hp, a, b] <;> simp [h1]
    · rintro (⟨rfl, rfl⟩ | ⟨rfl, rfl⟩ | ⟨rfl, rfl⟩ | ⟨rfl, rfl⟩) <;> exact ⟨rfl, by decide⟩
  rw [e1]
  decide +kernel

/-- The restart on two ranks splits the family. -/
theorem exRest_restart {file : File 2 ℚ Unit} (htree : file.tree.toFinset = exMesh.toFinset)
    (hN : Tiling exRest.grid file.tree.toFinset) {t : State 2 2 ℚ Unit} (e3 : restart exRest file = some t) :
    List.ofFn t.ranks.octs = exSplit := by
  have hC := exRest_ok
  unfold restart at e3
  obtain ⟨R2, h8, e3⟩ := Option.bind_eq_some_iff.1 e3
  simp only at e3
  split at e3
  swap
  · cases e3
  cases e3
  unfold restartRanks at h8
  obtain ⟨R0, h9, h8⟩ := Option.bind_eq_some_iff.1 h8
  obtain ⟨R1, h10, h8⟩ := Option.bind_eq_some_iff.1 h8
  change List.foldlM (restartPass exRest file) R0 [1] = some R1 at h10
  rw [List.foldlM_cons] at h10
  obtain ⟨R1', h11, h10⟩ := Option.bind_eq_some_iff.1 h10
  cases h10
  unfold restartPass at h11
  simp only at h11
  split at h11
  swap
  · cases h11
  refine exSplit_of h9 (fun a ha => ?_) h11 h8
  obtain ⟨R0', e0', -, m0⟩ := start_spec (P := 2) (e := 3) (L := 2) hC.wf (by decide) (by decide) (by decide) hC.coarse
    (by decide)
  change start 3 exGrid = some R0' at e0'
  change start 3 exGrid = some R0 at h9
  rw [h9] at e0'
  cases e0'
  have ha' := (m0 a).1 ha
  have hval : Valid exGrid a := by
    refine ⟨ha'.1.ge, fun i => ?_⟩
    unfold Grid.count
    rw [ha'.1]
    exact (ha'.2 i).trans_le (by simp [exRest])
  have hca : a = ⟨1, ![0, 0]⟩ ∨ a = ⟨1, ![1, 0]⟩ ∨ a = ⟨1, ![0, 1]⟩ ∨ a = ⟨1, ![1, 1]⟩ := by
    obtain ⟨l, p⟩ := a
    obtain ⟨q1, q2⟩ := ha'
    have q3 : p 0 < 2 := q2 0
    have q4 : p 1 < 2 := q2 1
    change l = 1 at q1
    have hp : p = ![p 0, p 1] := by funext i; fin_cases i <;> rfl
    have a3 : p 0 = 0 ∨ p 0 = 1 := by omega
    have a4 : p 1 = 0 ∨ p 1 = 1 := by omega
    rcases a3 with a | a <;> rcases a4 with b | b <;> rw [hp, a, b] <;> simp [q1]
  have hcut : Cut file.tree.toFinset 1 a := by
    rw [htree]
    rcases hca with rfl | rfl | rfl | rfl
    · exact Or.inr ⟨rfl, ⟨2, ![0, 0]⟩, by decide, by decide, by decide, by decide⟩
    all_goals exact Or.inl (by decide)
  obtain ⟨m, q5, q6⟩ := restartMark_cut (lmax := 2) hC.wf hN (by rw [htree]; decide) hval hcut
  change (restartMark exRest.grid file.tree.toFinset 2 1 a).getD 0 = _
  rw [q5, Option.getD_some]
  rw [htree] at q6
  have hin : (⟨1, ![0, 0]⟩ : Oct 2) ∉ exMesh.toFinset := by decide
  rcases hca with rfl | rfl | rfl | rfl
  · rcases q6 with ⟨h, -⟩ | ⟨-, h, -⟩
    · rw [h]; rfl
    · exact absurd h hin
  all_goals
    rcases q6 with ⟨-, h, -⟩ | ⟨h, -⟩
    · exact absurd (show _ ∈ exMesh.toFinset by decide) (not_mem_of_inner hC.wf (by rw [← htree]; exact hN) h)
    · rw [h]; rfl
theorem exMesh_size {P : ℕ} [NeZero P] {u : State 2 P ℚ Unit} (hu : Ok exRest u) (hm : u.ranks.mesh = exMesh.toFinset) :
    (List.ofFn u.ranks.octs).flatten.length < 2 ^ 63 := by
  have h8 : (List.ofFn u.ranks.octs).flatten.Nodup :=
    hu.distributed.order.imp fun hlt he => by rw [he] at hlt; exact lt_irrefl _ hlt
  have h9 : (List.ofFn u.ranks.octs).flatten.toFinset = exMesh.toFinset := hm
  rw [← List.toFinset_card_of_nodup h8, h9]
  have : exMesh.toFinset.card = 7 := by decide
  rw [this]
  norm_num

/-- **C87**, disagreement. A run on one rank does two iterations. Restarted on two ranks from the checkpoint after the
first one, it does not: the restart distributes the octants with `loadBalance()`, without compact levels, which splits
a family, and the AMR cycle, which coarsens it, does not end. -/
theorem C87_more_ranks_never_end : ∃ (s : State 2 1 ℚ Unit) (l0 l1 l2 : Loop 2 1 ℚ Unit) (file : File 2 ℚ Unit)
    (t : State 2 2 ℚ Unit) (l1' : Loop 2 2 ℚ Unit), simulate exRest 0 [.initRefine] = some s ∧
    enter 2 (-1) 0 s = some l0 ∧ iterations exRest 2 1 l0 = some l1 ∧ iterations exRest 2 1 l1 = some l2 ∧
    save [0] l1.state l1.iter = some file ∧ restart exRest file = some t ∧ enter 2 (-1) file.iter t = some l1' ∧
    iterations exRest 2 1 l1' = none := by
  have hC := exRest_ok
  obtain ⟨s, h1, hs, hone, hm⟩ := exRest_serial
  obtain ⟨l0, h2⟩ := enter_some (af := 2) (lf := -1) (by decide) (by decide) 0 s
  obtain ⟨hl0, f1, f2⟩ := enter_ok (by decide) hs h2
  obtain ⟨u, h3, r3, hu, honeu⟩ := exRest_hydro hs hone
  have h4 : iterate exRest 2 l0 = some ⟨u, 1, ⟨true, 2, 0⟩, ⟨false, -1, 0⟩⟩ := by
    have : l0 = ⟨s, 0, ⟨true, 2, 0⟩, ⟨false, -1, 0⟩⟩ := by
      have : enter 2 (-1) 0 s = some (⟨s, 0, ⟨true, 2, 0⟩, ⟨false, -1, 0⟩⟩ : Loop 2 1 ℚ Unit) := rfl
      rw [h2] at this
      exact Option.some.inj this
    rw [this]
    unfold iterate
    simp only [h3, Option.bind_some]
    rfl
  obtain ⟨v, h5, r5, hv, honev⟩ := exRest_hydro hu honeu
  have hmv : v.ranks.mesh = exMesh.toFinset := by rw [r5, r3]; exact hm
  have hto : ∀ a ∈ v.ranks.mesh, exBack a = -1 → ∀ b, Sibling b a → owner v.ranks.octs b = owner v.ranks.octs a :=
    fun _ _ _ _ _ => Subsingleton.elim _ _
  obtain ⟨w, h6⟩ := Option.isSome_iff_exists.1 (amr_isSome hC hv (exRest_marks hv honev hmv)
    (keeps_octant hv (exRest_marks hv honev hmv).2.1
      (fun a _ => by unfold exBack; split <;> omega) hto) hto)
  have h7 : iterate exRest 2 ⟨u, 1, ⟨true, 2, 0⟩, ⟨false, -1, 0⟩⟩ = some ⟨w, 2, ⟨true, 2, 2⟩, ⟨false, -1, 0⟩⟩ := by
    unfold iterate
    simp only [h5, Option.bind_some]
    rw [if_pos (by decide), h6, Option.bind_some]
    rfl
  have hmu : u.ranks.mesh = exMesh.toFinset := by rw [r3]; exact hm
  have hn := exMesh_size hu hmu
  obtain ⟨file, t, e1, e2, e3, ht, hsame⟩ := restart_same (P' := 2) hC (by decide) hu hn (order := [0])
    (by decide) 1
  obtain ⟨l1', e4⟩ := enter_some (af := 2) (lf := -1) (by decide) (by decide) file.iter t
  refine ⟨s, l0, ⟨u, 1, ⟨true, 2, 0⟩, ⟨false, -1, 0⟩⟩, ⟨w, 2, ⟨true, 2, 2⟩, ⟨false, -1, 0⟩⟩, file, t, l1', h1, h2, ?_, ?_,
    e1, e3, e4, ?_⟩
  · rw [iterations, h4, Option.bind_some, iterations]
  · rw [iterations, h7, Option.bind_some, iterations]
  obtain ⟨g1, -, g3⟩ := (same_iff hu ht).1 hsame
  have honet : ∀ o ∈ t.ranks.mesh, ∀ x : Fin 2 → ℕ, (∀ k, x k < 2) → t.field o x = fun _ => 1 := by
    intro o ho x hx
    rw [← g1] at ho
    rw [← g3 o ho x hx]
    exact honeu o ho x hx
  have htree : file.tree.toFinset = exMesh.toFinset := by
    rw [save_eq (P := 1) (order := [0]) (by decide) u hn] at e1
    cases e1
    exact hmu
  have hsplit : List.ofFn t.ranks.octs = exSplit :=
    exRest_restart htree (by rw [htree, ← hmu]; exact hu.tiling) e3
  obtain ⟨t3, h8, r8, ht3, hone3⟩ := exRest_hydro ht honet
  have hl1' : l1' = ⟨t, 1, ⟨true, 2, 0⟩, ⟨false, -1, 1⟩⟩ := by
    have : enter 2 (-1) 1 t = some (⟨t, 1, ⟨true, 2, 0⟩, ⟨false, -1, 1⟩⟩ : Loop 2 2 ℚ Unit) := rfl
    rw [e2] at e4
    rw [e4] at this
    exact Option.some.inj this
  rw [hl1', iterations]
  have : iterate exRest 2 ⟨t, 1, ⟨true, 2, 0⟩, ⟨false, -1, 1⟩⟩ = none := by
    unfold iterate
    simp only [h8, Option.bind_some]
    rw [if_pos (by decide), exRest_amr_fails ht3 hone3 (by rw [r8]; exact hsplit)]
    rfl
  rw [this, Option.bind_none]

/-! ### Particles -/

theorem searchUp_some {d : ℕ} {M : Finset (Oct d)} {b : Oct d} (n l : ℕ) (hn : n ≤ l) (p : Fin d → ℕ)
    (h : searchUp M n l p = some b) : b ∈ M ∧ Anc b ⟨l, p⟩ := by
  induction n generalizing l p with
  | zero => cases h
  | succ n ih =>
    unfold searchUp at h
    split at h
    · next hm =>
      cases h
      exact ⟨hm, Anc.refl _⟩
    · obtain ⟨h1, h2⟩ := ih _ (by omega) _ h
      refine ⟨h1, h2.trans ⟨Nat.sub_le _ _, fun i => ?_⟩⟩
      have : l - (l - 1) = 1 := by omega
      simp [this, Nat.shiftRight_eq_div_pow]

/-- A rank that does not store the leaf at a position does not find an octant there. -/
theorem lookup_fails {d : ℕ} {G : Grid d} (hG : G.WF) {M Mr : Finset (Oct d)} (hM : Tiling G M) (h1 : 1 ≤ G.lmin) {L : ℕ}
    (hL : ∀ o ∈ M, o.level ≤ L) (hsub : ∀ b ∈ Mr, b ∈ M) {o : Oct d} (ho : o ∈ M) (hor : o ∉ Mr) {x : Fin d → ℚ}
    (hx : Covers G o x) : getiOctFromPos G Mr G.lmin L x = none := by
  have hv := hM.valid o ho
  obtain ⟨b, h2, h3, h4, h5⟩ := C04_getiOctFromPos_correct hG hM G.lmin L (fun o h => ⟨(hM.valid o h).1, hL o h⟩) x
    fun i => ⟨le_trans (lo_nonneg o i) (hx i).1, lt_of_lt_of_le (hx i).2 (hi_le_one hG hv i)⟩
  have hbo := h5 o ho hx
  subst hbo
  have hlm : G.lmin ≤ L := le_trans hv.1 (hL o ho)
  cases hr : getiOctFromPos G Mr G.lmin L x with
  | none => rfl
  | some c =>
    exfalso
    unfold getiOctFromPos at h2 hr
    obtain ⟨-, h6⟩ := searchUp_some _ _ (by omega) _ h2
    obtain ⟨h7, h8⟩ := searchUp_some _ _ (by omega) _ hr
    have hc := hsub c h7
    rcases le_total c.level o.level with h | h
    · exact hor (hM.eq_of_anc hG hc ho (h8.linear h6 h) ▸ h7)
    · exact hor ((hM.eq_of_anc hG ho hc (h6.linear h8 h)).symm ▸ h7)

/-- **C87**, disagreement: particles. The restart gives every rank the same share of the particles in the file, whatever
their positions (`InitialConditions_restart.cpp` L303-336), and does not send them to the ranks that own their cells. The
first thing that is done to particles in the time loop is to look up the cell at their position
(`ParticleUpdate_CIC_density.cpp` L61, `ParticleUpdate_NGP_density.cpp` L46). If all particles are in one octant, then on
every rank that does not store this octant, locally or as a ghost, there are particles for which this fails. -/
theorem C87_particles_fail {d P : ℕ} [NeZero P] {K ι ν S : Type} [Field K] [LinearOrder K] {C : Config d K ι ν S}
    (hC : C.Ok) {file : File d K ι} {t : State d P K ι} (hP : P ≤ ∏ k, C.grid.coarse k)
    (hN : Tiling C.grid file.tree.toFinset) (hB : Balanced C.grid file.tree.toFinset)
    (hlev : ∀ o ∈ file.tree.toFinset, o.level ≤ C.lmax) (h : restart C file = some t)
    {o : Oct d} (ho : o ∈ file.tree.toFinset) {r : Fin P} (hr : o ∉ rankMap t.ranks r)
    (particles : List (Fin d → ℚ)) (hp : ∀ x ∈ particles, Covers C.grid o x) (hmany : P ≤ particles.length)
    (hfit : particles.length * P < 2 ^ 32) :
    ∃ mine : List (Fin d → ℚ), mine ≠ [] ∧
      readView particles ((List.range P).map (particlesLocal particles.length P)) r = some mine ∧
      ∀ x ∈ mine, getiOctFromPos C.grid (rankMap t.ranks r) C.grid.lmin C.lmax x = none := by
  have hP0 : 0 < P := Nat.pos_of_ne_zero (NeZero.ne P)
  obtain ⟨R, e, hR, hm⟩ := restartRanks_spec (P' := P) hC hP hN hB hlev
  have ht : t.ranks = R := by
    unfold restart at h
    rw [e, Option.bind_some] at h
    simp only at h
    split at h
    · cases h; rfl
    · cases h
  obtain ⟨parts, h1, h2, h3⟩ := C39_particles_split_partial particles P hP0 hfit
  obtain ⟨h4, -, h5⟩ := h3 r r.2
  refine ⟨parts.getD r [], fun hn => ?_, h4, fun x hx => ?_⟩
  · rw [hn] at h5
    have : 0 < particles.length / P := Nat.div_pos hmany hP0
    simp at h5
    omega
  · have hx' : x ∈ particles := by
      rw [← h2, List.mem_flatten]
      refine ⟨parts.getD r [], ?_, hx⟩
      have hlt : (r : ℕ) < parts.length := by rw [h1]; exact r.2
      rw [List.getD_eq_getElem _ _ hlt]
      exact List.getElem_mem hlt
    rw [ht] at hr ⊢
    refine lookup_fails hC.wf hR.tiling hC.lmin (fun o ho => (hR.levels o ho).2)
      (mem_localMap_sub hR.ghostComplete r) (by rw [hm]; exact ho) hr (hp x hx')

/-! ### Triggers on the expansion factor -/

/-- **C87**, disagreement: cosmological runs with `output_slice_var = "aexp"`. The constructor sets `aexp` to the value at
the very start of the run (`DyabloTimeLoop.h` L282) and makes the triggers from it, also at a restart; the right value is
set during the first step, after the triggers have been called. So a trigger of a restarted run fires at its second
step, although no multiple of the interval is reached between the first two steps. Here the first run started at 1/10,
the interval is 1/10, the restart is at 41/100 and its second step at 42/100. -/
theorem C87_aexp_trigger_fails :
    (newRealTrigger (1 / 10 : ℚ) (1 / 10)).fires realFloor (fun n => if n ≤ 1 then 1 / 10 else 42 / 100) 1 = true ∧
    ¬ Crossed (1 / 10 : ℚ) (41 / 100) (42 / 100) ∧
    (newRealTrigger (1 / 10 : ℚ) (41 / 100)).fires realFloor (fun n => if n ≤ 1 then 41 / 100 else 42 / 100) 1 = false := by
  refine ⟨by decide +kernel, ?_, by decide +kernel⟩
  rintro ⟨m, h1, h2⟩
  rw [zsmul_eq_mul] at h1 h2
  have h3 : (4 : ℚ) < m := by linarith
  have h4 : (m : ℚ) < 5 := by linarith
  have h5 : (4 : ℤ) < m := by exact_mod_cast h3
  have h6 : m < (5 : ℤ) := by exact_mod_cast h4
  omega

/-! ### Cases that meet the hypotheses -/

/-- Without load balancing in the time loop, iterations do not fail as long as coarse octants are not split. -/
theorem iterations_whole {d P : ℕ} [NeZero P] {K ι ν S : Type} [Field K] [LinearOrder K] [IsStrictOrderedRing K]
    {C : Config d K ι ν S} (hC : C.Ok) (hr : ∀ u z, 0 ≤ C.rate u z) {af lf : ℤ} (hlf : lf < 0) (level n : ℕ)
    {l : Loop d P K ι} (hl : LoopOk C af lf l) (hw : Whole C.grid l.state.ranks) :
    ∃ m, iterations C level n l = some m ∧ LoopOk C af lf m ∧ Whole C.grid m.state.ranks := by
  induction n generalizing l with
  | zero => exact ⟨l, rfl, hl, hw⟩
  | succ n ih =>
    obtain ⟨s1, h1, w1⟩ := (step_whole hC hl.state hw).1 hr
    have o1 : Ok C s1 := (step_same hC hl.state hl.state (Same.refl hl.state) h1 h1).1
    obtain ⟨s2, h2, w2⟩ := (step_whole hC o1 w1).2.2.1
    have hb : (l.lbTrigger.trigger intFloor (l.iter + 1)).1 = false := by
      have : l.lbTrigger.enabled = false := by rw [hl.lb.2.enabled]; simp [hlf.le]
      simp [Trigger.trigger, this]
    have key : ∃ m, iterate C level l = some m ∧ Whole C.grid m.state.ranks := by
      unfold iterate
      simp only [hb, Bool.false_eq_true, if_false, Option.map_some]
      rw [show hydro C l.state = some s1 from h1, Option.bind_some]
      split
      · rw [show amr C s1 = some s2 from h2]
        exact ⟨_, rfl, w2⟩
      · exact ⟨_, rfl, w1⟩
    obtain ⟨m, h3, w3⟩ := key
    have hm := (iterate_same hC hl hl (SameLoop.refl hl.state) h3 h3).1
    obtain ⟨m', h4, h5⟩ := ih hm w3
    exact ⟨m', by rw [iterations, h3, Option.bind_some, h4], h5⟩

/-- The meshes of `exAdvect` are small. -/
theorem exAdvect_size {P : ℕ} [NeZero P] {s : State 2 P ℚ Unit} (h : Ok exAdvect s) :
    (List.ofFn s.ranks.octs).flatten.length < 2 ^ 63 := by
  have h8 : (List.ofFn s.ranks.octs).flatten.Nodup :=
    h.distributed.order.imp fun hlt he => by rw [he] at hlt; exact lt_irrefl _ hlt
  rw [← List.toFinset_card_of_nodup h8]
  change s.ranks.mesh.card < _
  have hle : s.ranks.mesh.card ≤ (Finset.range 5 ×ˢ Finset.range 16 ×ˢ Finset.range 16).card := by
    refine Finset.card_le_card_of_injOn (fun o => (o.level, o.pos 0, o.pos 1)) (fun o ho => ?_) fun a _ b _ hab => ?_
    · obtain ⟨h1, h2⟩ := h.tiling.valid o ho
      have h3 : o.level ≤ 4 := (h.levels o ho).2
      have h4 : ∀ i, o.pos i < 16 := fun i => by
        have h5 : o.pos i < 4 * 2 ^ (o.level - 2) := h2 i
        have h6 : 2 ^ (o.level - 2) ≤ 2 ^ 2 := Nat.pow_le_pow_right (by norm_num) (by omega)
        omega
      simpa using ⟨by omega, h4 0, h4 1⟩
    · obtain ⟨la, pa⟩ := a
      obtain ⟨lb, pb⟩ := b
      simp only [Prod.mk.injEq] at hab
      obtain ⟨e1, e2, e3⟩ := hab
      rw [e1]
      congr
      funext i
      fin_cases i
      · exact e2
      · exact e3
  exact lt_of_le_of_lt hle (by norm_num)

/-- C87: a run on eight ranks that is stopped after three of seven iterations and goes on on one rank. -/
example : ∃ (s : State 2 8 ℚ Unit) (l0 l1 l2 : Loop 2 8 ℚ Unit), simulate exAdvect 0 [.initRefine] = some s ∧
    enter 2 (-1) 0 s = some l0 ∧ iterations exAdvect 2 3 l0 = some l1 ∧ iterations exAdvect 2 4 l1 = some l2 ∧
    ∃ (file : File 2 ℚ Unit) (t : State 2 1 ℚ Unit) (l1' l2' : Loop 2 1 ℚ Unit),
      save (List.range 8) l1.state l1.iter = some file ∧ restart exAdvect file = some t ∧
      enter 2 (-1) file.iter t = some l1' ∧ iterations exAdvect 2 4 l1' = some l2' ∧ SameLoop exAdvect.blk l2 l2' := by
  have hC := exAdvect_ok
  have hP : 8 ≤ ∏ k, exAdvect.grid.coarse k := by decide
  have hr : ∀ u z, 0 ≤ exAdvect.rate u z := fun _ _ => abs_nonneg _
  obtain ⟨s0, e, hs, -, -, m⟩ := startSim_spec (P := 8) hC hP (0 : ℚ)
  obtain ⟨s, h1, w⟩ := (step_whole hC hs (whole_start hs fun o ho => ((m o).1 ho).1)).2.1
  have hsim : simulate exAdvect 0 [.initRefine] = some s := by
    unfold simulate
    rw [e, Option.bind_some, List.foldlM_cons, h1]
    rfl
  obtain ⟨l0, h2⟩ := enter_some (af := 2) (lf := -1) (by decide) (by decide) 0 s
  obtain ⟨hl0, f1, -⟩ := enter_ok (by decide) (simulate_ok hC hP hsim) h2
  obtain ⟨l1, h3, hl1, w1⟩ := iterations_whole hC hr (by decide) 2 3 hl0 (by rw [f1]; exact w)
  obtain ⟨l2, h4, -⟩ := iterations_whole hC hr (by decide) 2 4 hl1 w1
  exact ⟨s, l0, l1, l2, hsim, h2, h3, h4,
    C87_restart_serial hC hP 0 _ hsim (by decide) h2 h3 h4 (exAdvect_size hl1.state) (List.Perm.refl _)⟩

/-- C87 (particles): sixteen octants on sixteen ranks. The rank of the octant in the lower left corner does not store the
octant two rows above it. -/
example : ∃ (file : File 2 ℚ Unit) (t : State 2 16 ℚ Unit) (r : Fin 16),
    Tiling exAdvect.grid file.tree.toFinset ∧ Balanced exAdvect.grid file.tree.toFinset ∧
    (∀ o ∈ file.tree.toFinset, o.level ≤ exAdvect.lmax) ∧ restart exAdvect file = some t ∧
    (⟨2, ![0, 2]⟩ : Oct 2) ∈ file.tree.toFinset ∧ (⟨2, ![0, 2]⟩ : Oct 2) ∉ rankMap t.ranks r ∧
    ∀ x ∈ List.replicate 20 (![1 / 8, 5 / 8] : Fin 2 → ℚ), Covers exAdvect.grid ⟨2, ![0, 2]⟩ x := by
  have hC := exAdvect_ok
  have hP : 16 ≤ ∏ k, exAdvect.grid.coarse k := by decide
  obtain ⟨s, e, hs, -, -, m⟩ := startSim_spec (P := 16) hC hP (0 : ℚ)
  have hmesh : s.ranks.mesh = (Finset.range 4 ×ˢ Finset.range 4).image fun p : ℕ × ℕ => (⟨2, ![p.1, p.2]⟩ : Oct 2) := by
    ext o
    rw [m, Finset.mem_image]
    constructor
    · rintro ⟨h1, h2⟩
      refine ⟨(o.pos 0, o.pos 1), by simpa using ⟨h2 0, h2 1⟩, ?_⟩
      obtain ⟨l, p⟩ := o
      change l = 2 at h1
      rw [h1]
      congr
      funext i
      fin_cases i <;> rfl
    · rintro ⟨p, hp, rfl⟩
      rw [Finset.mem_product, Finset.mem_range, Finset.mem_range] at hp
      refine ⟨rfl, fun i => ?_⟩
      fin_cases i
      · exact hp.1
      · exact hp.2
  have hcard : s.ranks.mesh.card = 16 := by rw [hmesh]; decide
  have hlen : ∀ {R : Ranks 2 16}, Good 3 4 exAdvect.grid R → R.mesh = s.ranks.mesh →
      (List.ofFn R.octs).flatten.length = 16 := by
    intro R hR hm
    have h8 : (List.ofFn R.octs).flatten.Nodup :=
      hR.distributed.order.imp fun hlt he => by rw [he] at hlt; exact lt_irrefl _ hlt
    rw [← List.toFinset_card_of_nodup h8]
    refine Eq.trans ?_ hcard
    rw [← hm]
    rfl
  obtain ⟨file, t, h1, -, h2, ht, hsame⟩ := restart_same (P' := 16) hC hP hs (by rw [hlen hs rfl]; norm_num)
    (order := List.range 16) (List.Perm.refl _) 0
  have hm := ((same_iff hs ht).1 hsame).1
  have htree : file.tree.toFinset = s.ranks.mesh := by
    rw [save_eq (P := 16) (List.Perm.refl _) s (by rw [hlen hs rfl]; norm_num)] at h1
    cases h1
    rfl
  have ha : (⟨2, ![0, 0]⟩ : Oct 2) ∈ t.ranks.mesh := by rw [← hm, hmesh]; decide
  have hb : (⟨2, ![0, 2]⟩ : Oct 2) ∈ t.ranks.mesh := by rw [← hm, hmesh]; decide
  refine ⟨file, t, owner t.ranks.octs ⟨2, ![0, 0]⟩, by rw [htree]; exact hs.tiling, by rw [htree]; exact hs.balanced,
    by rw [htree]; exact fun o ho => (hs.levels o ho).2, h2, by rw [htree, hm]; exact hb, fun hin => ?_, fun x hx => ?_⟩
  · have hone : ∀ o ∈ t.ranks.octs (owner t.ranks.octs ⟨2, ![0, 0]⟩), o = ⟨2, ![0, 0]⟩ := by
      have h3 := hlen ht hm.symm
      have h4 : ∑ r, (t.ranks.octs r).length = 16 := by
        rw [List.length_flatten, List.map_ofFn, List.sum_ofFn] at h3
        exact h3
      have h5 : ∀ r, 1 ≤ (t.ranks.octs r).length := fun r => List.length_pos_of_ne_nil (ht.nonempty r)
      have h6 : (t.ranks.octs (owner t.ranks.octs ⟨2, ![0, 0]⟩)).length = 1 := by
        by_contra hne
        have h7 : ∑ r : Fin 16, 1 < ∑ r, (t.ranks.octs r).length :=
          Finset.sum_lt_sum (fun r _ => h5 r) ⟨_, Finset.mem_univ _, lt_of_le_of_ne (h5 _) (Ne.symm hne)⟩
        rw [h4] at h7
        simp at h7
      obtain ⟨a, h7⟩ := List.length_eq_one_iff.1 h6
      have h8 := owner_mem t.ranks.octs ha
      rw [h7] at h8 ⊢
      intro o ho
      rw [List.mem_singleton] at h8 ho
      rw [ho, h8]
    have h9 : (⟨2, ![0, 2]⟩ : Oct 2) ≠ ⟨2, ![0, 0]⟩ := by decide
    unfold rankMap localMap at hin
    rw [Finset.mem_union, Finset.mem_filter] at hin
    rcases hin with ⟨-, h10⟩ | h10
    · exact h9 (hone _ (by rw [← show owner t.ranks.octs ⟨2, ![0, 2]⟩ = _ from h10]; exact owner_mem _ hb))
    · obtain ⟨-, -, a, h11, h12⟩ := (ht.ghosts _ _).1 h10
      rw [hone a h11] at h12
      obtain ⟨z, h13, h14, h15⟩ := h12 1
      unfold lo hi Grid.count at h14 h15
      simp [exAdvect] at h14 h15
      obtain h16 | ⟨-, h16⟩ := h13
      · rw [h16] at h15; norm_num at h15
      · rcases h16 with h16 | h16 <;> rw [h16] at h14 h15
        · norm_num at h15
        · norm_num at h14
  · rw [List.eq_of_mem_replicate hx]
    intro i
    unfold lo hi Grid.count
    fin_cases i <;> simp [exAdvect]
    all_goals norm_num

end Verif.Sim
