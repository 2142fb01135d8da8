import Verif.Sim.Check
import Verif.Sim.SecondDerivative

/-!
# C107: thresholds that are too close, and runs that meet the hypotheses
-/

namespace Verif.Sim

open Verif.Octree Verif.Cells Verif.Adapt Verif.Flux Verif.Hydro Verif.Hydro.OneNeighbor Verif.Refine Verif.Remap Verif.Run

/-- The gas at rest, refined by mass with `mass_refine` twice `mass_coarsen`. -/
def exFlip : Config 2 ℚ Unit Unit ℚ := { exRest with need := fun _ _ => false, condition := .mass (1 / 20) (1 / 40) }

theorem exFlip_ok : exFlip.Ok where
  dim := Or.inl rfl
  bits := by decide
  wf := exGrid_wf
  lmin := by decide
  lmax := by decide
  keys := by decide
  coarse := by decide
  blk := by decide
  cfl := by simp [exFlip, exRest]
  depth := by decide

/-- All leaves of one level, and density 1. -/
def Even1 {P : ℕ} (s : State 2 P ℚ Unit) (l : ℕ) : Prop :=
  ∀ r, ∀ o ∈ s.ranks.octs r, o.level = l ∧ ∀ x : Fin 2 → ℕ, (∀ k, x k < 2) → s.data r o x () = 1

theorem exFlip_vol {o : Oct 2} : vol exFlip o = (1 / 2 ^ o.level / 2) ^ 2 ∨ o.level = 0 := by
  by_cases h : o.level = 0
  · exact Or.inr h
  refine Or.inl ?_
  have hc : ∀ k : Fin 2, (exGrid.count k o.level : ℚ) = 2 ^ o.level := by
    intro k
    obtain ⟨n, hn⟩ := Nat.exists_eq_succ_of_ne_zero h
    have h1 : exGrid.count k (1 + n) = exGrid.count k 1 * 2 ^ n := by
      rw [count_add exGrid k n (n := 1) le_rfl]
    have h2 : exGrid.count k 1 = 2 := by fin_cases k <;> decide
    rw [hn, Nat.succ_eq_one_add, h1, h2]
    push_cast
    rw [pow_add, pow_one]
  have hk : ∀ k : Fin 2, (hi exFlip.grid o k - lo exFlip.grid o k) / exFlip.blk k *
      (exFlip.dom.xmax k - exFlip.dom.xmin k) = 1 / 2 ^ o.level / 2 := by
    intro k
    change (hi exGrid o k - lo exGrid o k) / (2 : ℕ) * (1 - 0) = _
    unfold hi lo
    rw [hc]
    push_cast
    ring
  unfold vol
  rw [Finset.prod_congr rfl fun k _ => hk k, Finset.prod_const]
  rfl

theorem exFlip_amr {P : ℕ} [NeZero P] {s t : State 2 P ℚ Unit} (hs : Ok exFlip s) {l : ℕ} (hl : l = 1 ∨ l = 2)
    (h : Even1 s l) (e : amr exFlip s = some t) : Ok exFlip t ∧ Even1 t (3 - l) := by
  have hC := exFlip_ok
  obtain ⟨f, hf, hf1, ht, hm, hv⟩ := amr_least hC hs e
  have hlev : ∀ o ∈ s.ranks.mesh, o.level = l := fun o ho => (h _ o (owner_mem _ ho)).1
  have hmk : ∀ o ∈ s.ranks.mesh, gMark exFlip s.ranks.mesh s.field o = if l = 1 then 1 else -1 := by
    intro o ho
    have ho' := owner_mem _ ho
    obtain ⟨m, h1, h2, h3⟩ := mass_marks hC hs (t := 1 / 20) (t' := 1 / 40) rfl ho'
    rw [rank_marks hC hs ho, Option.some.injEq] at h1
    rw [h1]
    have hval : ∀ x : Fin 2 → ℕ, (∀ k, x k < 2) → exFlip.rho (s.data (owner s.ranks.octs o) o x) = 1 :=
      fun x hx => (h _ o ho').2 x hx
    have hvol := (exFlip_vol (o := o)).resolve_right (by rw [hlev o ho]; omega)
    rw [hlev o ho] at hvol h2 h3
    rcases hl with rfl | rfl
    · rw [if_pos rfl, h2]
      refine ⟨by decide, fun _ => 0, by decide, ?_⟩
      rw [hval _ (by decide), hvol]
      norm_num
    · rw [if_neg (by decide), h3]
      refine ⟨by decide, fun x hx => ?_⟩
      rw [hval x hx, hvol]
      norm_num
  have hfv : ∀ o ∈ s.ranks.mesh, f o = if l = 1 then 1 else -1 := by
    intro o ho
    rcases hl with rfl | rfl
    · have h1 := hf.1 o ho
      rw [hmk o ho, if_pos rfl] at h1
      rw [if_pos rfl]
      exact le_antisymm (hf1 o ho).2 h1
    · rw [if_neg (by decide)]
      refine le_antisymm (hf.2.2 (fun _ => -1) ⟨fun a ha b hb _ => ?_, fun a ha _ q hq => ⟨?_, rfl⟩⟩ (fun a ha => ?_) o ho)
        (hf1 o ho).1
      · rw [hlev a ha, hlev b hb]; omega
      · have hva := hs.tiling.valid a ha
        obtain ⟨b, hb, hbq⟩ := hs.tiling.exists_leaf hC.wf.toPos (hq.valid hva (by rw [hlev a ha]; decide))
        have hl1 := hlev b hb
        have hl2 := hlev a ha
        have hl3 := hq.1
        rcases hbq with h1 | h1
        · rwa [← h1.eq_of_level (by omega)]
        · rwa [h1.eq_of_level (by omega)]
      · rw [hmk a ha, if_neg (by decide)]
  refine ⟨ht, fun r o ho => ⟨?_, fun x hx => ?_⟩⟩
  · have h1 := mem_mesh ho
    rw [hm] at h1
    obtain ⟨a, ha, h2⟩ := (mem_newMesh hf.2.1 o).1 h1
    have h3 := hfv a ha
    have h4 := hlev a ha
    rcases hl with rfl | rfl
    · rw [if_pos rfl] at h3
      rcases h2 with h2 | h2 | h2
      · omega
      · omega
      · omega
    · rw [if_neg (by decide)] at h3
      rcases h2 with h2 | h2 | h2
      · omega
      · omega
      · rw [h2.2]
        change a.level - 1 = 1
        omega
  · have hone : ∀ q ∈ cellMesh exFlip.blk s.ranks.mesh, boxes exFlip.blk s.field () q = 1 := by
      intro q hq
      obtain ⟨c, hc, y, hy, rfl⟩ := mem_cellMesh.1 hq
      rw [boxes_cell _ _ _ hy]
      exact (h _ c (owner_mem _ hc)).2 y hy
    have h1 := hv o (mem_mesh ho) x hx ()
    have h0 : t.field o x () = t.data r o x () := by unfold State.field; rw [owner_eq ht ho]
    rw [h0] at h1
    rcases h1 with ⟨h2, h3⟩ | ⟨p, h2, -, -, h3⟩ | ⟨h2, h3⟩
    · rw [h3]; exact hone _ h2
    · rw [h3]; exact hone _ h2
    · rw [Finset.sum_congr rfl fun q _ => hone _ (h2 q)] at h3
      simp only [Finset.sum_const, Finset.card_univ, Fintype.card_fun, Fintype.card_fin] at h3
      norm_num at h3
      linarith

theorem exFlip_hydro {P : ℕ} [NeZero P] {s t : State 2 P ℚ Unit} (hs : Ok exFlip s) {l : ℕ} (h : Even1 s l)
    (e : hydro exFlip s = some t) : Ok exFlip t ∧ Even1 t l := by
  have hC := exFlip_ok
  obtain ⟨dt, -, r3, -, d3⟩ := hydro_spec hC.wf hC.cfl hs e
  refine ⟨by unfold Ok; rw [r3]; exact hs, fun r o ho => ?_⟩
  rw [r3] at ho
  refine ⟨(h r o ho).1, fun x hx => ?_⟩
  rw [d3 r o ho x hx]
  have h1 := exRest_flux hs.tiling hs.balanced s.field (correctDt exFlip s.time dt) (mem_mesh ho) hx ()
  change (gFlux exRest s.ranks.mesh s.field _ o x ()).getD 0 = 1
  rw [h1]
  unfold State.field
  rw [owner_eq hs ho]
  exact (h r o ho).2 x hx

/-- **C107 (disagreement).** If `mass_refine` is less than `2^d` times `mass_coarsen`, which the code does not exclude, a gas
at rest with the same density everywhere is refined everywhere and coarsened everywhere in turn, as long as the run goes
on. -/
theorem C107_mass_close_thresholds_alternate (P : ℕ) [NeZero P] (hP : P ≤ 4) (n : ℕ) : ∃ s : State 2 P ℚ Unit,
    simulate exFlip 0 (List.replicate n [Op.hydro, Op.amr]).flatten = some s ∧
    ∀ r, ∀ o ∈ s.ranks.octs r, (o.level = if Even n then 1 else 2) ∧
      ∀ x : Fin 2 → ℕ, (∀ k, x k < 2) → s.data r o x () = 1 := by
  have hC := exFlip_ok
  have hP' : P ≤ ∏ k, exFlip.grid.coarse k := hP.trans (by decide)
  obtain ⟨s, hs⟩ := C85_without_balancing (P := P) hC hP' (fun _ _ => zero_le_one) 0
    (List.replicate n [Op.hydro, Op.amr]).flatten (fun level h => by
      obtain ⟨l, h1, h2⟩ := List.mem_flatten.1 h
      rw [(List.mem_replicate.1 h1).2] at h2
      simp at h2)
  refine ⟨s, hs, ?_⟩
  obtain ⟨s0, e0, g0, -, d0, m0⟩ := startSim_spec (P := P) hC hP' 0
  unfold simulate at hs
  rw [e0, Option.bind_some] at hs
  have h0 : Even1 s0 1 := fun r o ho => ⟨((m0 o).1 (mem_mesh ho)).1, fun x _ => by rw [d0]; rfl⟩
  suffices key : ∀ (n l : ℕ) (s0 : State 2 P ℚ Unit), l = 1 ∨ l = 2 → Ok exFlip s0 → Even1 s0 l →
      (List.replicate n [Op.hydro, Op.amr]).flatten.foldlM (step exFlip) s0 = some s →
      Even1 s (if Even n then l else 3 - l) from key n 1 s0 (Or.inl rfl) g0 h0 hs
  intro n
  induction n with
  | zero =>
    intro l s0 _ _ h e
    cases e
    simpa using h
  | succ n ih =>
    intro l s0 hl g0 h e
    rw [List.replicate_succ, List.flatten_cons, List.foldlM_append] at e
    obtain ⟨s2, e2, e⟩ := Option.bind_eq_some_iff.1 e
    rw [List.foldlM_cons] at e2
    obtain ⟨s1, e1, e2⟩ := Option.bind_eq_some_iff.1 e2
    rw [List.foldlM_cons] at e2
    obtain ⟨s2', e2', e3⟩ := Option.bind_eq_some_iff.1 e2
    cases e3
    obtain ⟨g1, h1⟩ := exFlip_hydro g0 h e1
    obtain ⟨g2, h2⟩ := exFlip_amr g1 hl h1 e2'
    have h3 := ih (3 - l) s2 (by omega) g2 h2 e
    have h4 : (if Even (n + 1) then l else 3 - l) = if Even n then 3 - l else 3 - (3 - l) := by
      by_cases hn : Even n
      · rw [if_pos hn, if_neg (by rw [Nat.even_add_one]; exact not_not.2 hn)]
      · rw [if_neg hn, if_pos (by rw [Nat.even_add_one]; exact hn)]; omega
    rw [h4]
    exact h3

/-! ### Runs that meet the hypotheses -/

/-- Advection with the condition on masses. -/
def exMass : Config 2 ℚ Unit Unit ℚ := { exAdvect with condition := .mass (1 / 10) (1 / 100) }

/-- Advection with the condition on velocities; the momentum is the only field there is. -/
def exDown : Config 2 ℚ Unit Unit ℚ := { exAdvect with condition := .downflows (-1) (fun u => u ()) (1 / 2) (1 / 10) }

/-- Advection on blocks of 4x4 cells with the condition on second derivatives. -/
def exSecond : Config 2 ℚ Unit Unit ℚ :=
  { exAdvect with
    blk := fun _ => 4
    bflux := fun _ _ _ _ _ _ => 0
    condition := .secondDerivative (1 / 100) [fun u => u ()] (fun _ _ _ => 1) fun l i => (l.map fun u => u i).sum / l.length }

theorem exMass_ok : exMass.Ok := { exAdvect_ok with condition := trivial }

theorem exDown_ok : exDown.Ok := { exAdvect_ok with condition := trivial }

theorem exSecond_ok : exSecond.Ok := { exAdvect_ok with blk := by decide, condition := fun _ => ⟨le_rfl, ⟨2, rfl⟩⟩ }

/-- C107 (mass, settles): on eight ranks. -/
example : ∃ s t : State 2 8 ℚ Unit, simulate exMass 0 [.initRefine, .hydro] = some s ∧ step exMass s .amr = some t ∧
    ∀ r a, a ∈ s.ranks.octs r → marks exMass s a = some 1 →
      ∃ r' c, c ∈ t.ranks.octs r' ∧ PartOf a c ∧ marks exMass t c ≠ some (-1) := by
  have hP : 8 ≤ ∏ k, exMass.grid.coarse k := by decide
  have hr : ∀ u z, 0 ≤ exMass.rate u z := fun _ _ => abs_nonneg _
  obtain ⟨t, ht⟩ := C85_without_balancing (P := 8) exMass_ok hP hr 0 ([.initRefine, .hydro] ++ [.amr]) (by simp)
  obtain ⟨s, hs, hst⟩ : ∃ s : State 2 8 ℚ Unit, simulate exMass 0 [.initRefine, .hydro] = some s ∧
      step exMass s .amr = some t := by
    unfold simulate at ht ⊢
    obtain ⟨s0, e0, h⟩ := Option.bind_eq_some_iff.1 ht
    rw [List.foldlM_append] at h
    obtain ⟨s, e1, h⟩ := Option.bind_eq_some_iff.1 h
    refine ⟨s, by rw [e0]; exact e1, ?_⟩
    rw [List.foldlM_cons] at h
    obtain ⟨t', h1, h2⟩ := Option.bind_eq_some_iff.1 h
    cases h2
    exact h1
  exact ⟨s, t, hs, hst, (C107_mass_settles (i := ()) exMass_ok hP (fun _ => rfl) rfl (by norm_num) hs hst).2.1⟩

/-- C107 (second derivatives, independent of ranks): eight ranks and three. -/
example : ∃ (s t : State 2 8 ℚ Unit) (t' : State 2 3 ℚ Unit), simulate exSecond 0 [.initRefine] = some s ∧
    simulate exSecond 0 ([.initRefine] ++ [.hydro, .amr]) = some t ∧
    simulate exSecond 0 ([.initRefine] ++ [.hydro, .amr]) = some t' ∧ OnlyRefined s t ∧
    ∀ r, ∀ o ∈ t.ranks.octs r, ∃ m, marks exSecond t o = some m ∧ marks exSecond t' o = some m := by
  have hP : 8 ≤ ∏ k, exSecond.grid.coarse k := by decide
  have hP' : 3 ≤ ∏ k, exSecond.grid.coarse k := by decide
  have hr : ∀ u z, 0 ≤ exSecond.rate u z := fun _ _ => abs_nonneg _
  obtain ⟨s, hs⟩ := C85_without_balancing (P := 8) exSecond_ok hP hr 0 [.initRefine] (by simp)
  obtain ⟨t, ht⟩ := C85_without_balancing (P := 8) exSecond_ok hP hr 0 ([.initRefine] ++ [.hydro, .amr]) (by simp)
  obtain ⟨t', ht'⟩ := C85_without_balancing (P := 3) exSecond_ok hP' hr 0 ([.initRefine] ++ [.hydro, .amr]) (by simp)
  exact ⟨s, t, t', hs, ht, ht', C107_second_derivative_never_coarsens exSecond_ok hP rfl hs ht,
    fun r o ho => C107_marks_independent_of_ranks exSecond_ok hP hP' ht ht' ho⟩

/-- C107 (downflows): at the start the density is 1 or 2. -/
example : ∃ s : State 2 8 ℚ Unit, simulate exDown 0 [] = some s ∧ ∀ r, ∀ o ∈ s.ranks.octs r, ∃ m, marks exDown s o = some m := by
  have hP : 8 ≤ ∏ k, exDown.grid.coarse k := by decide
  obtain ⟨s, e, -, -, hd, -⟩ := startSim_spec (P := 8) exDown_ok hP (0 : ℚ)
  have hsim : simulate exDown 0 [] = some s := by unfold simulate; rw [e]; rfl
  refine ⟨s, hsim, fun r o ho => ?_⟩
  obtain ⟨m, hm, -⟩ := C107_downflows exDown_ok hP hsim rfl ho fun x _ => by
    rw [hd]
    change (if o.pos 0 = 0 ∧ x 0 = 0 then (2 : ℚ) else 1) ≠ 0
    split <;> norm_num
  exact ⟨m, hm⟩

/-- Advection with this condition between walls, with the value of the nearest cell of the block beyond them. -/
def exWall : Config 2 ℚ Unit Unit ℚ :=
  { exSecond with
    grid := ⟨2, fun _ => 4, fun _ => false⟩
    condition := .secondDerivative (1 / 100) [fun u => u ()]
      (fun B c => B fun k => ⟨min (c.idx k - 4) 3, Nat.lt_of_le_of_lt (min_le_right _ _) (by decide : 3 < 4)⟩)
      fun l i => (l.map fun u => u i).sum / l.length }

theorem exWall_ok : exWall.Ok :=
  { exSecond_ok with wf := ⟨⟨by decide⟩, by decide⟩, keys := by decide, coarse := by decide, condition := fun _ => ⟨le_rfl, ⟨2, rfl⟩⟩ }

/-- C107 (second derivatives): after refinement of a corner, with walls and cells of several sizes. -/
example : ∃ s : State 2 8 ℚ Unit, simulate exWall 0 [.initRefine, .hydro] = some s ∧ ∀ r, ∀ o ∈ s.ranks.octs r,
    ∃ m, marks exWall s o = some m ∧ m ≠ -1 ∧ (m = 1 → o.level < 4) := by
  have hP : 8 ≤ ∏ k, exWall.grid.coarse k := by decide
  obtain ⟨s, hs⟩ := C85_without_balancing (P := 8) exWall_ok hP (fun _ _ => abs_nonneg _) 0 [.initRefine, .hydro] (by simp)
  refine ⟨s, hs, fun r o ho => ?_⟩
  obtain ⟨m, h1, h2, h3⟩ := C107_second_derivative exWall_ok hP hs (by norm_num) (show (0 : ℚ) ≤ 1 / 5 by norm_num) rfl
    (fun l hl i => by rw [hl]; push_cast; exact div_mul_cancel₀ _ (by norm_num)) ho
  exact ⟨m, h1, h2, fun h => (h3.1 h).1⟩

/-- C107 (pseudo_gradient) for the run of C85. -/
example : ∃ s : State 2 8 ℚ Unit, simulate exAdvect 0 [.initRefine, .hydro] = some s ∧
    ∀ r, ∀ o ∈ s.ranks.octs r, ∃ m, marks exAdvect s o = some m ∧ (m = 1 → o.level < 4) := by
  have hP : 8 ≤ ∏ k, exAdvect.grid.coarse k := by decide
  obtain ⟨s, hs⟩ := C85_without_balancing (P := 8) exAdvect_ok hP (fun _ _ => abs_nonneg _) 0 [.initRefine, .hydro] (by simp)
  refine ⟨s, hs, fun r o ho => ?_⟩
  obtain ⟨m, h1, h2, -⟩ := C107_pseudo_gradient exAdvect_ok hP hs rfl (by simp [exAdvect]) (by simp [exAdvect]) ho
  exact ⟨m, h1, fun h => (h2.1 h).1⟩

end Verif.Sim
