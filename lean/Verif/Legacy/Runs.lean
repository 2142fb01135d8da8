import Verif.Legacy.MarkProps
import Verif.Sim.AmrWith

/-!
# C111: runs with the older refinement criterion

`RefineCondition_legacy` (C95) in the simulation of C85: time step, hydro update, AMR cycle and load balancing on all ranks.
Arithmetic is exact.
-/

namespace Verif.Legacy

open Verif.Octree Verif.Cells Verif.Run Verif.Legacy.Spec Verif.Adapt
open Verif.Sim (Op Ok Same Asked amrWith rankMap exchangeLayers Own)

noncomputable section

variable {d N Q : ℕ} {ν S : Type} [NeZero N] [NeZero Q]

/-! ### Model -/

/-- `RefineCondition_legacy.cpp` L17-32: what the condition reads from the configuration, and
`std::numeric_limits<real_t>` (`epsilon`, `lowest`). -/
structure Old (d : ℕ) where
  bcMin : Fin d → BC
  bcMax : Fin d → BC
  rp : Hydro.Params
  eps : ℝ
  lowest : ℝ
  errorMin : ℝ
  errorMax : ℝ
  perGroup : ℕ

/-- L43-46 and L76-88: blocks of the mesh, two ghost cells, no gravity. -/
def Old.par (A : Old d) (C : Sim.Config d ℝ (Var d) ν S) : Par d := ⟨C.grid, C.blk, 2, A.bcMin, A.bcMax, false⟩

/-- L116-123, with the levels of the mesh. -/
def Old.marks (A : Old d) (C : Sim.Config d ℝ (Var d) ν S) : MarkPar :=
  ⟨A.rp, A.eps, A.errorMin, A.errorMax, C.grid.lmin, C.lmax, A.perGroup⟩

/-- What a run does not determine: how a rank with `n` octants schedules its threads, and what its new arrays contain. -/
structure OldNoise (d N : ℕ) where
  sched : Fin N → ℕ → Sched
  arrays : Fin N → MarkState d

/-- The markers of rank `r`, by the number of the octant (C95). -/
def rankMarks (C : Sim.Config d ℝ (Var d) ν S) (A : Old d) (nz : OldNoise d N) (s : Sim.State d N ℝ (Var d)) (r : Fin N) :
    Option (ℕ → ℤ) :=
  markOnRank (A.par C) (A.marks C) A.lowest (Sim.loopGhosts C.blk) s.ranks s.data r (nz.sched r (s.ranks.octs r).length)
    (nz.arrays r)

open Classical in
/-- `RefineCondition_legacy.cpp` L35-130 on all ranks, called at `DyabloTimeLoop.h` L766. Simplification: no result if the sum
that gives the number of groups of a rank does not fit in 32 bits (`RefineCondition_legacy.cpp` L67). -/
def oldMarks (C : Sim.Config d ℝ (Var d) ν S) (A : Old d) (nz : OldNoise d N) (s : Sim.State d N ℝ (Var d)) :
    Option (Oct d → ℤ) :=
  if ∀ r, (s.ranks.octs r).length + A.perGroup ≤ 2 ^ 32 ∧ (rankMarks C A nz s r).isSome then
    some fun o => (rankMarks C A nz s (owner s.ranks.octs o)).getD 0 ((s.ranks.octs (owner s.ranks.octs o)).idxOf o)
  else none

/-- As `Sim.step`; the AMR cycle (`DyabloTimeLoop.h` L757-794) uses these markers. -/
def oldStep (C : Sim.Config d ℝ (Var d) ν S) (A : Old d) (s : Sim.State d N ℝ (Var d)) :
    Op × OldNoise d N → Option (Sim.State d N ℝ (Var d))
  | (.amr, nz) => (oldMarks C A nz s).bind fun mk => amrWith C mk s
  | (.hydro, _) => Sim.step C s .hydro
  | (.initRefine, _) => Sim.step C s .initRefine
  | (.loadBalance level, _) => Sim.step C s (.loadBalance level)

/-- A run. -/
def oldRun (C : Sim.Config d ℝ (Var d) ν S) (A : Old d) (time : ℝ) (ops : List (Op × OldNoise d N)) :
    Option (Sim.State d N ℝ (Var d)) :=
  (Sim.startSim C time).bind fun s => ops.foldlM (oldStep C A) s

/-! ### Specification -/

/-- What the condition needs of the configuration. -/
structure Old.Ok (A : Old d) (C : Sim.Config d ℝ (Var d) ν S) : Prop where
  eps : 0 ≤ A.eps
  lowest : A.lowest ≤ 0
  group : 0 < A.perGroup
  blocks : ∀ k, 4 ≤ C.blk k ∧ 2 ∣ C.blk k
  size : ∏ k, (C.blk k + 4) ≤ 2 ^ 32
  periodic : PeriodicOk (A.par C)
  known : ∀ k, A.bcMin k ≠ .user ∧ A.bcMax k ≠ .user

/-- Every cell is in one chunk, every octant appends once, and so on. -/
def OldNoise.Ok (nz : OldNoise d N) (C : Sim.Config d ℝ (Var d) ν S) (A : Old d) : Prop :=
  ∀ r n, (nz.sched r n).Ok (A.par C) (A.marks C) n

/-- The marker `m` is that of the octant `o` in a mesh `M` with the gas `g`. -/
def Wanted (C : Sim.Config d ℝ (Var d) ν S) (A : Old d) (M : Finset (Oct d)) (g : Mesh d) (o : Oct d) (m : ℤ) : Prop :=
  ∃ q, GasAround ⟨C.grid, C.blk, 2, A.bcMin, A.bcMax, false⟩ A.rp M g o q ∧
    IsMark C.blk ⟨A.rp, A.eps, A.errorMin, A.errorMax, C.grid.lmin, C.lmax, A.perGroup⟩ o.level q m

/-! ### Markers -/

section
variable {C : Sim.Config d ℝ (Var d) ν S} {A : Old d} {nz : OldNoise d N} {s : Sim.State d N ℝ (Var d)}

omit [NeZero Q] in
theorem field_own (hs : Ok C s) : Own s.ranks C.blk s.data s.field := fun r o ho x _ => by
  unfold Sim.State.field; rw [Sim.owner_eq hs ho]

omit [NeZero Q] in
theorem octs_card (hs : Ok C s) : ∑ r, (s.ranks.octs r).length = s.ranks.mesh.card := by
  have hnd : (List.ofFn s.ranks.octs).flatten.Nodup :=
    hs.distributed.order.imp fun h e => absurd h (by rw [e]; exact lt_irrefl _)
  show _ = (List.ofFn s.ranks.octs).flatten.toFinset.card
  rw [List.toFinset_card_of_nodup hnd, List.length_flatten, List.map_ofFn, List.sum_ofFn]
  rfl

/-- The markers of a rank from the whole mesh. -/
theorem rankMarks_spec (hC : C.Ok) (hA : A.Ok C) (hnz : nz.Ok C A) (hs : Ok C s) {g : Mesh d}
    (hg : Own s.ranks C.blk s.data g) (r : Fin N) (hn : (s.ranks.octs r).length + A.perGroup ≤ 2 ^ 32) :
    ∃ m, rankMarks C A nz s r = some m ∧ ∀ i o, (s.ranks.octs r)[i]? = some o →
      IsMark C.blk (A.marks C) o.level (gasOf (A.par C) A.rp s.ranks.mesh g o) (m i) := by
  have hd : 0 < d := by have := hC.dim; omega
  have h32 : ∏ i, ghosted (A.par C) i ≤ 2 ^ 32 := hA.size
  exact markCells_spec (P := A.par C) (MP := A.marks C) (hnz r _)
    (rank_fills (P := A.par C) hC.wf hs rfl hA.blocks hA.periodic (A.marks C)
      (Sim.two_le_loopGhosts fun k => (hA.blocks k).1) hg r) hd (by show 1 ≤ 2; norm_num) hC.blk h32 hA.eps hA.lowest hA.group hn
      (nz.arrays r)

/-- The markers of all ranks from the whole mesh. -/
theorem oldMarks_spec (hC : C.Ok) (hA : A.Ok C) (hnz : nz.Ok C A) (hs : Ok C s) {g : Mesh d}
    (hg : Own s.ranks C.blk s.data g) :
    ((oldMarks C A nz s).isSome ↔ ∀ r, (s.ranks.octs r).length + A.perGroup ≤ 2 ^ 32) ∧
    ∀ mk, oldMarks C A nz s = some mk → ∀ o ∈ s.ranks.mesh,
      IsMark C.blk (A.marks C) o.level (gasOf (A.par C) A.rp s.ranks.mesh g o) (mk o) := by
  classical
  unfold oldMarks
  constructor
  · constructor
    · intro h r
      split at h
      · next hc => exact (hc r).1
      · cases h
    · intro h
      rw [if_pos fun r => ⟨h r, by
        obtain ⟨m, h1, -⟩ := rankMarks_spec hC hA hnz hs hg r (h r)
        rw [h1]; rfl⟩]
      rfl
  · intro mk h o ho
    split at h
    swap
    · cases h
    next hc =>
    rw [Option.some.injEq] at h
    obtain ⟨m, h1, h2⟩ := rankMarks_spec hC hA hnz hs hg (owner s.ranks.octs o) (hc _).1
    rw [← h]
    simp only [h1, Option.getD_some]
    exact h2 _ o (List.getElem?_idxOf (owner_mem _ ho))

theorem oldMarks_asked (hC : C.Ok) (hA : A.Ok C) (hnz : nz.Ok C A) (hs : Ok C s) {mk : Oct d → ℤ}
    (h : oldMarks C A nz s = some mk) : Asked C s.ranks.mesh mk := by
  intro o ho
  obtain ⟨h1, h2, h3⟩ := (oldMarks_spec hC hA hnz hs (field_own hs)).2 mk h o ho
  exact ⟨by omega, by omega, fun h => (h2.1 h).1, fun h => (h1.1 h).1⟩

/-- Two runs set the same markers. -/
theorem oldMarks_same (hC : C.Ok) {n n' : ℕ} (hA : ({ A with perGroup := n } : Old d).Ok C)
    (hA' : ({ A with perGroup := n' } : Old d).Ok C) (hnz : nz.Ok C { A with perGroup := n }) {nz' : OldNoise d Q}
    (hnz' : nz'.Ok C { A with perGroup := n' }) (hs : Ok C s) {s' : Sim.State d Q ℝ (Var d)} (hs' : Ok C s')
    (h : Same C.blk s s') {mk mk' : Oct d → ℤ} (e : oldMarks C { A with perGroup := n } nz s = some mk)
    (e' : oldMarks C { A with perGroup := n' } nz' s' = some mk') : ∀ o ∈ s.ranks.mesh, mk o = mk' o := by
  intro o ho
  obtain ⟨hm, -, hd⟩ := (Sim.same_iff hs hs').1 h
  have k1 := (oldMarks_spec hC hA hnz hs (field_own hs)).2 mk e o ho
  have hown : Own s'.ranks C.blk s'.data s.field := fun r a ha x hx => by
    rw [hd a (by rw [hm]; exact Sim.mem_mesh ha) x hx]
    exact field_own hs' r a ha x hx
  have k2 := (oldMarks_spec hC hA' hnz' hs' hown).2 mk' e' o (hm ▸ ho)
  rw [← hm] at k2
  exact IsMark.unique (MP := A.marks C) k1 k2

/-- A step on two numbers of ranks. -/
theorem oldStep_same (hC : C.Ok) {n n' : ℕ} (hA : ({ A with perGroup := n } : Old d).Ok C)
    (hA' : ({ A with perGroup := n' } : Old d).Ok C) (hnz : nz.Ok C { A with perGroup := n }) {nz' : OldNoise d Q}
    (hnz' : nz'.Ok C { A with perGroup := n' }) (hs : Ok C s) {s' : Sim.State d Q ℝ (Var d)} (hs' : Ok C s')
    (h : Same C.blk s s') {op : Op} {t : Sim.State d N ℝ (Var d)} {t' : Sim.State d Q ℝ (Var d)}
    (e : oldStep C { A with perGroup := n } s (op, nz) = some t)
    (e' : oldStep C { A with perGroup := n' } s' (op, nz') = some t') : Ok C t ∧ Ok C t' ∧ Same C.blk t t' := by
  cases op with
  | amr =>
    obtain ⟨mk, m1, e⟩ := Option.bind_eq_some_iff.1 e
    obtain ⟨mk', m1', e'⟩ := Option.bind_eq_some_iff.1 e'
    exact Sim.amrWith_same hC hs hs' h (oldMarks_asked hC hA hnz hs m1) (oldMarks_same hC hA hA' hnz hnz' hs hs' h m1 m1') e e'
  | hydro => exact Sim.step_same hC hs hs' h (op := .hydro) e e'
  | initRefine => exact Sim.step_same hC hs hs' h (op := .initRefine) e e'
  | loadBalance l => exact Sim.step_same hC hs hs' h (op := .loadBalance l) e e'

theorem oldSteps_same (hC : C.Ok) {n n' : ℕ} (hA : ({ A with perGroup := n } : Old d).Ok C)
    (hA' : ({ A with perGroup := n' } : Old d).Ok C) {ops : List (Op × OldNoise d N)} {ops' : List (Op × OldNoise d Q)}
    (heq : ops.map Prod.fst = ops'.map Prod.fst) (hn : ∀ a ∈ ops, a.2.Ok C { A with perGroup := n })
    (hn' : ∀ a ∈ ops', a.2.Ok C { A with perGroup := n' }) {s t : Sim.State d N ℝ (Var d)} {s' t' : Sim.State d Q ℝ (Var d)}
    (hs : Ok C s) (hs' : Ok C s') (h : Same C.blk s s')
    (e : ops.foldlM (oldStep C { A with perGroup := n }) s = some t)
    (e' : ops'.foldlM (oldStep C { A with perGroup := n' }) s' = some t') : Ok C t ∧ Ok C t' ∧ Same C.blk t t' := by
  induction ops generalizing ops' s s' with
  | nil =>
    cases ops' with
    | cons a l => cases heq
    | nil => cases e; cases e'; exact ⟨hs, hs', h⟩
  | cons a ops ih =>
    cases ops' with
    | nil => cases heq
    | cons a' ops' =>
      obtain ⟨a, nz⟩ := a
      obtain ⟨a', nz'⟩ := a'
      simp only [List.map_cons, List.cons.injEq] at heq
      obtain ⟨rfl, heq⟩ := heq
      rw [List.foldlM_cons] at e e'
      obtain ⟨u, u1, e⟩ := Option.bind_eq_some_iff.1 e
      obtain ⟨u', u1', e'⟩ := Option.bind_eq_some_iff.1 e'
      obtain ⟨k1, k2, k3⟩ := oldStep_same hC hA hA' (hn _ List.mem_cons_self) (hn' _ List.mem_cons_self) hs hs' h u1 u1'
      exact ih heq (fun b hb => hn b (List.mem_cons_of_mem _ hb)) (fun b hb => hn' b (List.mem_cons_of_mem _ hb)) k1 k2 k3 e e'

theorem oldRun_ok (hC : C.Ok) (hA : A.Ok C) (hN : N ≤ ∏ k, C.grid.coarse k) {time : ℝ} {ops : List (Op × OldNoise d N)}
    (hn : ∀ a ∈ ops, a.2.Ok C A) {t : Sim.State d N ℝ (Var d)} (h : oldRun C A time ops = some t) : Ok C t := by
  obtain ⟨s, e, hs, -⟩ := Sim.startSim_spec (P := N) hC hN time
  unfold oldRun at h
  rw [e, Option.bind_some] at h
  exact (oldSteps_same (n := A.perGroup) (n' := A.perGroup) hC hA hA rfl hn hn hs hs (Sim.Same.refl hs) h h).1

end

/-! ### Properties -/

section
variable {C : Sim.Config d ℝ (Var d) ν S} {A : Old d}

/-- **C111.** All other steps are those of C85. -/
theorem C111_other_steps (time : ℝ) (ops : List (Op × OldNoise d N)) (h : ∀ a ∈ ops, a.1 ≠ .amr) :
    oldRun C A time ops = Sim.simulate C time (ops.map Prod.fst) := by
  unfold oldRun Sim.simulate
  congr 1
  funext s
  induction ops generalizing s with
  | nil => rfl
  | cons a ops ih =>
    have e : oldStep C A s a = Sim.step C s a.1 := by
      obtain ⟨op, nz⟩ := a
      cases op with
      | amr => exact absurd rfl (h _ List.mem_cons_self)
      | _ => rfl
    rw [List.map_cons, List.foldlM_cons, List.foldlM_cons, e]
    congr 1
    funext u
    exact ih (fun b hb => h b (List.mem_cons_of_mem _ hb)) u

/-- **C111.** In every run the markers are those of the gas of the whole mesh (C95). -/
theorem C111_marks (hC : C.Ok) (hA : A.Ok C) (hN : N ≤ ∏ k, C.grid.coarse k) (time : ℝ) {ops : List (Op × OldNoise d N)}
    (hn : ∀ a ∈ ops, a.2.Ok C A) {s : Sim.State d N ℝ (Var d)} (h : oldRun C A time ops = some s) {nz : OldNoise d N}
    (hnz : nz.Ok C A) (hlen : ∀ r, (s.ranks.octs r).length + A.perGroup ≤ 2 ^ 32) {g : Mesh d}
    (hg : ∀ r, ∀ o ∈ s.ranks.octs r, ∀ x : Fin d → ℕ, (∀ k, x k < C.blk k) → s.data r o x = g o x) :
    ∃ mk, oldMarks C A nz s = some mk ∧ ∀ r, ∀ o ∈ s.ranks.octs r, Wanted C A s.ranks.mesh g o (mk o) := by
  have hs := oldRun_ok hC hA hN hn h
  obtain ⟨h1, h2⟩ := oldMarks_spec hC hA hnz hs hg
  obtain ⟨mk, hmk⟩ := Option.isSome_iff_exists.1 (h1.2 hlen)
  exact ⟨mk, hmk, fun r o ho => ⟨_, gasOf_around (P := A.par C) hC.wf hs rfl hA.blocks hA.periodic hA.known A.rp g ho,
    h2 mk hmk o (Sim.mem_mesh ho)⟩⟩

/-- **C111.** The AMR cycle cuts every octant below the finest level where the relative second difference of density or
pressure is above `error_max` in some cell. -/
theorem C111_refines (hC : C.Ok) (hA : A.Ok C) (hN : N ≤ ∏ k, C.grid.coarse k) (time : ℝ) {ops : List (Op × OldNoise d N)}
    (hn : ∀ a ∈ ops, a.2.Ok C A) {s t : Sim.State d N ℝ (Var d)} (h : oldRun C A time ops = some s) {nz : OldNoise d N}
    (hnz : nz.Ok C A) (e : oldStep C A s (.amr, nz) = some t) {g : Mesh d}
    (hg : ∀ r, ∀ o ∈ s.ranks.octs r, ∀ x : Fin d → ℕ, (∀ k, x k < C.blk k) → s.data r o x = g o x) {r : Fin N} {o : Oct d}
    (ho : o ∈ s.ranks.octs r) (hl : o.level < C.lmax) {q : (Fin d → ℤ) → State d}
    (hq : GasAround ⟨C.grid, C.blk, 2, A.bcMin, A.bcMax, false⟩ A.rp s.ranks.mesh g o q)
    (hr : Rough C.blk A.eps A.errorMax q) {c : Oct d} (hc : c.level = o.level + 1) (hp : ∀ k, c.pos k / 2 = o.pos k) :
    ∃ r, c ∈ t.ranks.octs r := by
  have hs := oldRun_ok hC hA hN hn h
  obtain ⟨mk, m1, e⟩ := Option.bind_eq_some_iff.1 e
  have hk := (oldMarks_spec hC hA hnz hs hg).2 mk m1 o (Sim.mem_mesh ho)
  have ha := gasOf_around (P := A.par C) hC.wf hs rfl hA.blocks hA.periodic hA.known A.rp g ho
  have hM := (Sim.around hC.wf hs ho).tiling
  have hr' : Rough C.blk A.eps A.errorMax (gasOf (A.par C) A.rp s.ranks.mesh g o) :=
    rough_congr (fun p hp => GasAround.unique (P := A.par C) hC.wf.toPos hC.blk hM (fun _ _ _ _ => rfl) hq ha hp) hr
  exact (mem_leaves _ _).1 (Sim.amrWith_cuts hC hs (oldMarks_asked hC hA hnz hs m1) e (Sim.mem_mesh ho) (hk.1.2 ⟨hl, hr'⟩) hc hp)

/-- **C111.** Runs on any numbers of ranks, with groups of any sizes, any order of the threads and any contents of new
arrays, that both end, end with the same mesh, time and values. -/
theorem C111_same_result (hC : C.Ok) {n n' : ℕ} (hA : ({ A with perGroup := n } : Old d).Ok C) (hn' : 0 < n')
    (hN : N ≤ ∏ k, C.grid.coarse k) (hQ : Q ≤ ∏ k, C.grid.coarse k) (time : ℝ) {ops : List (Op × OldNoise d N)}
    {ops' : List (Op × OldNoise d Q)} (heq : ops.map Prod.fst = ops'.map Prod.fst)
    (ho : ∀ a ∈ ops, a.2.Ok C { A with perGroup := n }) (ho' : ∀ a ∈ ops', a.2.Ok C { A with perGroup := n' })
    {t : Sim.State d N ℝ (Var d)} {t' : Sim.State d Q ℝ (Var d)}
    (h : oldRun C { A with perGroup := n } time ops = some t)
    (h' : oldRun C { A with perGroup := n' } time ops' = some t') : Same C.blk t t' := by
  obtain ⟨s, e, hs, a1, a2, a3⟩ := Sim.startSim_spec (P := N) hC hN time
  obtain ⟨s', e', hs', b1, b2, b3⟩ := Sim.startSim_spec (P := Q) hC hQ time
  unfold oldRun at h h'
  rw [e, Option.bind_some] at h
  rw [e', Option.bind_some] at h'
  exact (oldSteps_same (A := A) (n := n) (n' := n') hC hA ⟨hA.eps, hA.lowest, hn', hA.blocks, hA.size, hA.periodic, hA.known⟩ heq ho ho' hs hs'
    (Sim.start_same hs hs' a1 b1 a2 b2 a3 b3) h h').2.2

/-- A step on one rank, if the octants fit in 32 bits. -/
theorem oldStep_serial (hC : C.Ok) {n n' : ℕ} (hA : ({ A with perGroup := n } : Old d).Ok C)
    (hA' : ({ A with perGroup := n' } : Old d).Ok C) {nz : OldNoise d N} (hnz : nz.Ok C { A with perGroup := n })
    {nz' : OldNoise d 1} (hnz' : nz'.Ok C { A with perGroup := n' }) {s : Sim.State d N ℝ (Var d)} (hs : Ok C s)
    {s' : Sim.State d 1 ℝ (Var d)} (hs' : Ok C s') (h : Same C.blk s s')
    (hlen : ∑ r, (s.ranks.octs r).length + n' ≤ 2 ^ 32) {op : Op} {t : Sim.State d N ℝ (Var d)}
    (e : oldStep C { A with perGroup := n } s (op, nz) = some t) :
    ∃ t', oldStep C { A with perGroup := n' } s' (op, nz') = some t' := by
  cases op with
  | amr =>
    obtain ⟨mk, m1, e⟩ := Option.bind_eq_some_iff.1 e
    have hm := ((Sim.same_iff hs hs').1 h).1
    have hlen' : ∀ r, (s'.ranks.octs r).length + n' ≤ 2 ^ 32 := by
      intro r
      have k1 := octs_card hs
      have k2 := octs_card hs'
      rw [hm, ← k2] at k1
      have k3 : ∑ r, (s'.ranks.octs r).length = (s'.ranks.octs r).length := by
        rw [Fin.sum_univ_one, Subsingleton.elim r 0]
      omega
    obtain ⟨mk', m1'⟩ := Option.isSome_iff_exists.1 ((oldMarks_spec hC hA' hnz' hs' (field_own hs')).1.2 hlen')
    obtain ⟨t', ht'⟩ := Sim.amrWith_serial hC hs hs' h (oldMarks_asked hC hA hnz hs m1)
      (oldMarks_same hC hA hA' hnz hnz' hs hs' h m1 m1') e
    exact ⟨t', Option.bind_eq_some_iff.2 ⟨mk', m1', ht'⟩⟩
  | hydro => exact Sim.step_serial hC hs hs' h (op := .hydro) e
  | initRefine => exact Sim.step_serial hC hs hs' h (op := .initRefine) e
  | loadBalance l => exact Sim.step_serial hC hs hs' h (op := .loadBalance l) e

/-- **C111.** A run that ends on some number of ranks ends on one rank, with the same result, if the number of octants
fits in 32 bits all along. -/
theorem C111_serial (hC : C.Ok) {n n' : ℕ} (hA : ({ A with perGroup := n } : Old d).Ok C) (hn' : 0 < n')
    (hN : N ≤ ∏ k, C.grid.coarse k) (time : ℝ) {ops : List (Op × OldNoise d N)} {ops' : List (Op × OldNoise d 1)}
    (heq : ops.map Prod.fst = ops'.map Prod.fst) (ho : ∀ a ∈ ops, a.2.Ok C { A with perGroup := n })
    (ho' : ∀ a ∈ ops', a.2.Ok C { A with perGroup := n' })
    (hlen : ∀ k (s : Sim.State d N ℝ (Var d)), oldRun C { A with perGroup := n } time (ops.take k) = some s →
      ∑ r, (s.ranks.octs r).length + n' ≤ 2 ^ 32) {t : Sim.State d N ℝ (Var d)}
    (h : oldRun C { A with perGroup := n } time ops = some t) :
    ∃ t' : Sim.State d 1 ℝ (Var d), oldRun C { A with perGroup := n' } time ops' = some t' ∧ Same C.blk t t' := by
  have hN1 : 1 ≤ ∏ k, C.grid.coarse k := Nat.succ_le_of_lt (Finset.prod_pos fun k _ => hC.wf.toPos.pos k)
  have hA' : ({ A with perGroup := n' } : Old d).Ok C :=
    ⟨hA.eps, hA.lowest, hn', hA.blocks, hA.size, hA.periodic, hA.known⟩
  obtain ⟨s, e, hs, a1, a2, a3⟩ := Sim.startSim_spec (P := N) hC hN time
  obtain ⟨s', e', hs', b1, b2, b3⟩ := Sim.startSim_spec (P := 1) hC hN1 time
  have hsame := Sim.start_same hs hs' a1 b1 a2 b2 a3 b3
  unfold oldRun at h hlen ⊢
  simp only [e, Option.bind_some] at h hlen
  rw [e', Option.bind_some]
  clear a1 a2 a3 b1 b2 b3 e e'
  induction ops generalizing ops' s s' with
  | nil =>
    cases ops' with
    | cons a l => cases heq
    | nil => cases h; exact ⟨s', rfl, hsame⟩
  | cons a ops ih =>
    cases ops' with
    | nil => cases heq
    | cons a' ops' =>
      obtain ⟨a, nz⟩ := a
      obtain ⟨a', nz'⟩ := a'
      simp only [List.map_cons, List.cons.injEq] at heq
      obtain ⟨rfl, heq⟩ := heq
      rw [List.foldlM_cons] at h ⊢
      obtain ⟨u, u1, h⟩ := Option.bind_eq_some_iff.1 h
      obtain ⟨u', u1'⟩ := oldStep_serial hC hA hA' (ho _ List.mem_cons_self) (ho' _ List.mem_cons_self) hs hs' hsame
        (hlen 0 s rfl) u1
      obtain ⟨k1, k2, k3⟩ := oldStep_same hC hA hA' (ho _ List.mem_cons_self) (ho' _ List.mem_cons_self) hs hs' hsame u1 u1'
      rw [u1']
      exact ih heq (fun b hb => ho b (List.mem_cons_of_mem _ hb)) (fun b hb => ho' b (List.mem_cons_of_mem _ hb)) u k1 u'
        k2 k3 h fun k w hw => hlen (k + 1) w (by rw [List.take_succ_cons, List.foldlM_cons, u1]; exact hw)

/-- **C111.** In a periodic box every quantity that the steps do not change after the update keeps its integral. -/
theorem C111_conserved (hC : C.Ok) (hD : Flux.Domain.Ok C.dom) (hper : ∀ k, C.grid.periodic k = true) (hA : A.Ok C)
    (hN : N ≤ ∏ k, C.grid.coarse k) {v : Var d} (hpost : ∀ dt u w, C.post dt u w v = w v) (time : ℝ)
    {ops ops' : List (Op × OldNoise d N)} (hn : ∀ a ∈ ops ++ ops', a.2.Ok C A) (hop : ∀ a ∈ ops', a.1 ≠ .initRefine)
    {s t : Sim.State d N ℝ (Var d)} (h : oldRun C A time ops = some s) (h' : oldRun C A time (ops ++ ops') = some t) :
    Sim.total C t v = Sim.total C s v := by
  have hs := oldRun_ok hC hA hN (fun a ha => hn a (List.mem_append_left _ ha)) h
  obtain ⟨s0, e0, -⟩ := Sim.startSim_spec (P := N) hC hN time
  unfold oldRun at h h'
  rw [e0, Option.bind_some] at h h'
  rw [List.foldlM_append, h] at h'
  replace h' : ops'.foldlM (oldStep C A) s = some t := h'
  replace hn : ∀ a ∈ ops', a.2.Ok C A := fun a ha => hn a (List.mem_append_right _ ha)
  clear h e0
  induction ops' generalizing s with
  | nil => cases h'; rfl
  | cons a ops' ih =>
    rw [List.foldlM_cons] at h'
    obtain ⟨u, u1, h2⟩ := Option.bind_eq_some_iff.1 h'
    clear h'
    obtain ⟨op, nz⟩ := a
    have hz := hn _ List.mem_cons_self
    have hop1 := hop _ List.mem_cons_self
    have hu := (oldStep_same (n := A.perGroup) (n' := A.perGroup) hC hA hA hz hz hs hs (Sim.Same.refl hs) u1 u1).1
    rw [ih (fun b hb => hop b (List.mem_cons_of_mem _ hb)) hu h2 fun b hb => hn b (List.mem_cons_of_mem _ hb)]
    cases op with
    | amr =>
      obtain ⟨mk, m1, e⟩ := Option.bind_eq_some_iff.1 u1
      exact Sim.amrWith_conserved hC hs (oldMarks_asked hC hA hz hs m1) e v
    | hydro => exact Sim.step_conserved hC hD hper hpost hs (op := .hydro) hop1 u1
    | initRefine => exact absurd rfl hop1
    | loadBalance l => exact Sim.step_conserved hC hD hper hpost hs (op := .loadBalance l) hop1 u1

end

end

end Verif.Legacy
