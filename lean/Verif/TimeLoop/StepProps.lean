import Verif.TimeLoop.StepHydro

/-!
# C99: a time step leaves the fields of the run, with the values the solvers gave them
-/

set_option linter.unusedSectionVars false

namespace Verif.StepFields

open Verif.Fields

variable {L H α M : Type} [Zero α] [DecidableEq L] [DecidableEq H]

theorem markCells_some {S : Setup} {W : Work (L ⊕ H) α M} {s : State String L H α} {F : Finset String}
    {d : String → L ⊕ H → α} (h : Fields.Inv s) (hs : Holds s ⟨F, d⟩) (h1 : "rho" ∈ F) (hT : ∀ n ∈ F, ¬ Temporary n)
    (hc : F.card ≤ 32) (hm : ∀ l, S.markReads = some l → l ≠ [] ∧ l.length ≤ 32 ∧ ∀ n ∈ l, n ∈ F) :
    ∃ s', markCells S W s = some (W.mark (judged S W d), s') ∧ Fields.Inv s' ∧ Holds s' ⟨F, d⟩ := by
  unfold markCells judged
  cases hr : S.markReads with
  | some l =>
    obtain ⟨a, b, c⟩ := hm l hr
    simp only
    rw [look_spec hs a b c]
    exact ⟨s, rfl, h, hs⟩
  | none =>
    simp only
    by_cases hd : S.density
    · rw [if_pos hd, if_pos hd]
      have hg : "rho_g" ∉ F := fun e => hT _ e (Or.inl rfl)
      have hkeys : s.keys = F := hs.names
      rw [if_neg (by rw [hkeys]; exact hg)]
      have g1 := newFields_gives h hs (names := ["rho_g"]) (by decide)
        (by intro n hn; rw [List.mem_singleton] at hn; rw [hn]; exact hg)
        (by simp only [List.length_cons, List.length_nil]; omega)
      obtain ⟨s1, o1, i1, k1⟩ := g1
      obtain ⟨s2, o2, i2, k2⟩ := projection_gives (p := W.projectMark) i1 k1 (Finset.mem_union_left _ h1)
        (Finset.mem_union_right _ (by decide))
      obtain ⟨i3, k3⟩ := deleteField_gives i2 k2 "rho_g"
      rw [o1, Option.bind_some, o2, Option.bind_some, look_spec k2 (by decide) (by decide) (by
        intro n hn
        rw [List.mem_singleton] at hn
        rw [hn]
        exact Finset.mem_union_right _ (by decide))]
      refine ⟨deleteField s2 "rho_g", ?_, i3, ?_⟩
      · rw [Option.map_some]
        congr 2
        congr 1
        funext n
        by_cases e : n = "rho_g"
        · rw [if_pos (by rw [e]; decide), if_pos e, if_pos e, if_neg (by decide), if_pos (by decide)]
        · rw [if_neg (by simpa using e), if_neg e]
      · have hF : (F ∪ ["rho_g"].toFinset).erase "rho_g" = F := by
          ext n
          simp only [Finset.mem_erase, Finset.mem_union, List.toFinset_cons, List.toFinset_nil, Finset.mem_insert,
            Finset.notMem_empty, or_false]
          constructor
          · rintro ⟨a, b | b⟩
            · exact b
            · exact absurd b a
          · intro b
            exact ⟨fun e => hg (e ▸ b), Or.inl b⟩
        rw [hF] at k3
        refine ⟨k3.names, fun n hn => ?_⟩
        have hn' : n ∈ F := by rw [k3.names] at hn; exact hn
        have hne : n ≠ "rho_g" := fun e => hg (e ▸ hn')
        rw [k3.data n hn]
        dsimp only
        rw [if_neg hne, if_neg (by simpa using hne)]
    · rw [if_neg hd, if_neg hd]
      rw [look_spec hs (by decide) (by decide) (by
        intro n hn
        rw [List.mem_singleton] at hn
        rw [hn]; exact h1)]
      exact ⟨s, rfl, h, hs⟩

theorem mem_after {S : Setup} {F : Finset String} {n : String} (h : n ∈ F) : n ∈ fieldsAfter S F :=
  Finset.mem_union_left _ h

theorem after_idem (S : Setup) (F : Finset String) : fieldsAfter S (fieldsAfter S F) = fieldsAfter S F := by
  unfold fieldsAfter
  rw [Finset.union_assoc, Finset.union_self]

theorem shared_mem {S : Setup} {F : Finset String} {state : Option (List String)} (hf : Fits S F state) :
    ∀ n ∈ shared S state, n ∈ fieldsAfter S F := by
  intro n hn
  unfold shared at hn
  rw [List.mem_append] at hn
  rcases hn with hn | hn
  · refine mem_after ?_
    cases state with
    | none => exact hf.fluid n hn
    | some names => exact hf.vars names rfl n hn
  · split_ifs at hn with hu
    · unfold fieldsAfter
      rw [if_pos hu, List.mem_singleton.1 hn]
      exact Finset.mem_union_right _ (by decide)
    · simp at hn

theorem shared_len {S : Setup} {F : Finset String} {state : Option (List String)} (hf : Fits S F state) :
    shared S state ≠ [] ∧ (shared S state).length ≤ 32 := by
  unfold shared
  have : state.getD ["rho", "e_tot", "rho_vx", "rho_vy", "rho_vz"] ≠ [] ∧
      (state.getD ["rho", "e_tot", "rho_vx", "rho_vy", "rho_vz"]).length ≤ 9 := by
    cases state with
    | none => exact ⟨by decide, by decide⟩
    | some names => exact ⟨(names_small hf.made).1, (names_small hf.made).2.1⟩
  refine ⟨fun e => this.1 (List.append_eq_nil_iff.1 e).1, ?_⟩
  rw [List.length_append]
  have : (if usesField S.gravityType then ["gphi"] else []).length ≤ 1 := by split_ifs <;> simp
  omega

theorem temporary_after {S : Setup} {F : Finset String} (h : ∀ n ∈ F, ¬ Temporary n) :
    ∀ n ∈ fieldsAfter S F, ¬ Temporary n := by
  intro n hn
  unfold fieldsAfter at hn
  rw [Finset.mem_union] at hn
  rcases hn with hn | hn
  · exact h n hn
  · split_ifs at hn
    · rw [List.mem_toFinset] at hn
      rintro (rfl | rfl | ⟨m, rfl⟩)
      · revert hn; decide
      · revert hn; decide
      · -- no name of gravity is as long as "_next"
        unfold next at hn
        have hl : ∀ k ∈ gravityFields, k.toList.length ≤ 4 := by decide
        have := hl _ hn
        rw [String.toList_append, List.length_append] at this
        have h5 : "_next".toList.length = 5 := by decide
        omega
    · simp at hn

/-- A solver that is not the constant one has the fields of gravity. -/
theorem gravity_mem {S : Setup} {F : Finset String} {state : Option (List String)} (hf : Fits S F state)
    (hno : S.solver ≠ some .constant) (g : GravitySolver) (hg : S.solver = some g) :
    ∀ n ∈ gravityFields, n ∈ fieldsAfter S F := by
  intro n hn
  have hu : usesField S.gravityType = true := by
    unfold Setup.gravityType
    rw [hg, Option.isSome_some, if_pos rfl, hf.valid g hg]
    cases g with
    | constant => exact absurd hg hno
    | cg => decide
    | pointMass => decide
  unfold fieldsAfter
  rw [if_pos hu]
  exact Finset.mem_union_right _ (List.mem_toFinset.2 hn)

theorem hydroGravity_mem {S : Setup} {F : Finset String} {state : Option (List String)} (hf : Fits S F state)
    (hno : S.solver ≠ some .constant) (hs : state ≠ none) : ∀ n ∈ hydroGravity S, n ∈ fieldsAfter S F := by
  intro n hn
  unfold hydroGravity at hn
  split_ifs at hn with hu
  · cases hg : S.solver with
    | none => rw [hf.needs hg hs] at hu; cases hu
    | some g =>
      refine gravity_mem hf hno g hg n ?_
      unfold gravityFields
      simp only [List.mem_cons, List.not_mem_nil, or_false] at hn ⊢
      tauto
  · simp at hn

theorem flowPart_gives {S : Setup} {W : Work (L ⊕ H) α M} {s : State String L H α} {F : Finset String}
    {d : String → L ⊕ H → α} {state : Option (List String)} (h : Fields.Inv s) (hs : Holds s ⟨F, d⟩) (hf : Fits S F state)
    (hW : W.Fits state) (hno : S.solver ≠ some .constant) :
    Gives (flowPart S W s) (fieldsAfter S F) (flowSpec S W state F d) := by
  have hT := temporary_after (S := S) hf.names
  unfold flowPart
  refine (createGravity_gives h hs hf.acceleration hf.few).bind fun s1 i1 k1 => ?_
  rw [exchanged_shared hf.made]
  refine (communicate_gives i1 k1 (shared_len hf).1 (shared_len hf).2 (shared_mem hf)).bind fun s2 i2 k2 => ?_
  refine (gravityPart_gives i2 k2 (mem_after (hf.fluid "rho" (by decide))) (gravity_mem hf hno) hT hf.few hno).bind
    fun s3 i3 k3 => ?_
  have hmove : movePart S s3 = some s3 := by
    unfold movePart
    cases hm : S.moveReads with
    | none => rfl
    | some l =>
      obtain ⟨a, b, c⟩ := hf.move l hm
      simp only
      rw [look_spec k3 a b c]
      rfl
  rw [hmove, Option.bind_some]
  exact hydroPart_gives i3 k3 hf.made hT hf.few (fun names e n hn => mem_after (hf.vars names e n hn))
    (hydroGravity_mem hf hno) hW

theorem cyclePart_gives {S : Setup} {W : Work (L ⊕ H) α M} {s : State String L H α} {F : Finset String}
    {d : String → L ⊕ H → α} {state : Option (List String)} (h : Fields.Inv s) (hs : Holds s ⟨fieldsAfter S F, d⟩)
    (hf : Fits S F state) :
    ∃ s', cyclePart S W s = some s' ∧ Fields.Inv s' ∧ Holds s' ⟨fieldsAfter S F, cycled S W state d⟩ ∧
      ∀ n ∈ s'.keys, s'.idx n = rank s'.keys n := by
  unfold cyclePart
  rw [exchanged_shared hf.made]
  obtain ⟨s1, o1, i1, k1⟩ := communicate_gives (W := W) h hs (shared_len hf).1 (shared_len hf).2 (shared_mem hf)
  rw [o1, Option.bind_some]
  have hrho : "rho" ∈ fieldsAfter S F := mem_after (hf.fluid "rho" (by decide))
  obtain ⟨s2, o2, i2, k2⟩ := markCells_some (S := S) (W := W) i1 k1 hrho (temporary_after hf.names) hf.few hf.mark
  rw [o2, Option.bind_some]
  exact remap_gives i2 k2 _ (Finset.card_pos.2 ⟨_, hrho⟩) hf.few

/-- **C99** (partial: the constant gravity solver is left out, see `C99_constant_fails`; load balancing is due only with an AMR
cycle, see `C28_stale_fields_fails`) For all solvers, a step goes through without an exception; afterwards the fields
are those of the run and of gravity, nothing temporary is left, and every field has the value that the solvers give it, one after
the other, without any temporary name: gravity is that of gas and particles, the hydro solver sees the density of the
gas, the criterion sees the density of gas and particles after the step. -/
theorem C99_step_partial {S : Setup} {W : Work (L ⊕ H) α M} {s : State String L H α} {F : Finset String}
    {d : String → L ⊕ H → α} {state : Option (List String)} (h : Fields.Inv s) (hs : Holds s ⟨F, d⟩) (hf : Fits S F state)
    (hW : W.Fits state) (hno : S.solver ≠ some .constant) (cycle : Bool) (balance : Option ((L → α) → L → α))
    (hb : balance ≠ none → cycle = true) :
    ∃ s', step S W cycle balance s = some s' ∧ Fields.Inv s' ∧ s'.keys = fieldsAfter S F ∧
      ∀ n ∈ s'.keys, s'.U (s'.idx n) = stepSpec S W state cycle balance F d n := by
  have hrho : "rho" ∈ fieldsAfter S F := mem_after (hf.fluid "rho" (by decide))
  obtain ⟨s1, o1, i1, k1⟩ := flowPart_gives h hs hf hW hno
  unfold step stepSpec
  rw [o1, Option.bind_some]
  cases cycle with
  | false =>
    cases balance with
    | none =>
      simp only [Bool.false_eq_true, if_false, Option.bind_some]
      exact ⟨s1, rfl, i1, k1.names, k1.data⟩
    | some R => exact absurd (hb (by simp)) (by decide)
  | true =>
    obtain ⟨s2, o2, i2, k2, r2⟩ := cyclePart_gives (W := W) i1 k1 hf
    simp only [if_true]
    rw [o2, Option.bind_some]
    cases balance with
    | none => exact ⟨s2, rfl, i2, k2.names, k2.data⟩
    | some R =>
      obtain ⟨s3, o3, i3, k3⟩ := balance_gives i2 k2 R (Finset.card_pos.2 ⟨_, hrho⟩) hf.few r2
      exact ⟨s3, o3, i3, k3.names, k3.data⟩

/-- The settings fit after a step if they did before. -/
theorem Fits.after {S : Setup} {F : Finset String} {state : Option (List String)} (hf : Fits S F state) :
    Fits S (fieldsAfter S F) state where
  valid := hf.valid
  made := hf.made
  fluid n hn := mem_after (hf.fluid n hn)
  vars names e n hn := mem_after (hf.vars names e n hn)
  acceleration := by
    unfold fieldsAfter
    by_cases hu : usesField S.gravityType
    · rw [if_pos hu]
      have m : ∀ n ∈ gravityFields, n ∈ F ∪ gravityFields.toFinset :=
        fun n hn => Finset.mem_union_right _ (List.mem_toFinset.2 hn)
      have hx := m "gx" (by decide)
      have hy := m "gy" (by decide)
      have hz := m "gz" (by decide)
      tauto
    · rw [if_neg hu, Finset.union_empty]
      exact hf.acceleration
  needs := hf.needs
  names := temporary_after hf.names
  move l e := by rw [after_idem]; exact hf.move l e
  mark l e := by rw [after_idem]; exact hf.mark l e
  few := by rw [after_idem]; exact hf.few

/-- What a step of a run is. -/
structure Event (L H α M : Type) where
  work : Work (L ⊕ H) α M
  cycle : Bool
  balance : Option ((L → α) → L → α)

/-- `DyabloTimeLoop.h` L519-525 `run`: step after step. -/
def steps (S : Setup) : List (Event L H α M) → State String L H α → Option (State String L H α)
  | [], s => some s
  | e :: es, s => (step S e.work e.cycle e.balance s).bind (steps S es)

/-- The arrays of a run, step after step. -/
def stepsSpec (S : Setup) (state : Option (List String)) : List (Event L H α M) → Finset String →
    (String → L ⊕ H → α) → String → L ⊕ H → α
  | [], _, d => d
  | e :: es, F, d => stepsSpec S state es (fieldsAfter S F) (stepSpec S e.work state e.cycle e.balance F d)

/-- **C99** (partial, as `C99_step_partial`) A run of any length goes through, its fields never change after the first step,
and hold what the solvers gave them in all steps. -/
theorem C99_run_partial {S : Setup} {state : Option (List String)} (hno : S.solver ≠ some .constant)
    (es : List (Event L H α M)) : ∀ {s : State String L H α} {F : Finset String} {d : String → L ⊕ H → α},
    Fields.Inv s → Holds s ⟨F, d⟩ → Fits S F state → es ≠ [] →
    (∀ e ∈ es, e.work.Fits state ∧ (e.balance ≠ none → e.cycle = true)) →
    ∃ s', steps S es s = some s' ∧ s'.keys = fieldsAfter S F ∧
      ∀ n ∈ s'.keys, s'.U (s'.idx n) = stepsSpec S state es F d n := by
  induction es with
  | nil => intro s F d _ _ _ h0; exact absurd rfl h0
  | cons e es ih =>
    intro s F d h hs hf _ he
    obtain ⟨hW, hb⟩ := he e List.mem_cons_self
    obtain ⟨s1, o1, i1, k1, v1⟩ := C99_step_partial h hs hf hW hno e.cycle e.balance hb
    unfold steps stepsSpec
    rw [o1, Option.bind_some]
    by_cases h0 : es = []
    · subst h0
      exact ⟨s1, rfl, k1, v1⟩
    · obtain ⟨s2, o2, k2, v2⟩ := ih (F := fieldsAfter S F) i1 ⟨k1, v1⟩ hf.after h0
        (fun e' he' => he e' (List.mem_cons_of_mem _ he'))
      rw [after_idem] at k2
      exact ⟨s2, o2, k2, v2⟩

/-- **C99**, the code violates the property: with `gravity/solver=GravitySolver_constant`, and no field `gx` in the initial
conditions, every step stops the program, whatever the other settings. The acceleration is a number of the settings and has no
fields, but the time loop exchanges `gx`, `gy`, `gz` after every gravity solver (`DyabloTimeLoop.h` L694). Without a solver
and with `gravity_type=constant_scalar`, as the examples of the code have it, the run goes through (`C99_step_partial`). -/
theorem C99_constant_fails {S : Setup} (hS : S.solver = some .constant) (hv : S.Valid) (W : Work (L ⊕ H) α M)
    (s : State String L H α) (hx : "gx" ∉ s.keys) (cycle : Bool)
    (balance : Option ((L → α) → L → α)) : step S W cycle balance s = none := by
  have hu : usesField S.gravityType = false := by
    unfold Setup.gravityType
    rw [hS, Option.isSome_some, if_pos rfl, hv _ hS]
    decide
  have key : ∀ (names outs : List String) (f : (String → L ⊕ H → α) → String → L ⊕ H → α) (t : State String L H α),
      "gx" ∉ t.keys → ∀ t', kernel names outs id f t = some t' → "gx" ∉ t'.keys := by
    intro names outs f t ht t' e
    unfold kernel at e
    rw [Option.bind_eq_some_iff] at e
    obtain ⟨a, -, e⟩ := e
    rw [Option.bind_eq_some_iff] at e
    obtain ⟨b, -, e⟩ := e
    rw [Option.some.injEq] at e
    rw [← e]
    exact ht
  have move : ∀ (dest src : String) (t : State String L H α), dest ≠ "gx" → "gx" ∉ t.keys →
      ∀ t', moveField t dest src = some t' → "gx" ∉ t'.keys := by
    intro dest src t hd ht t' e
    unfold moveField at e
    split_ifs at e with hsrc
    rw [Option.some.injEq] at e
    rw [← e]
    simp only [Finset.mem_erase, Finset.mem_insert, not_and, not_or]
    intro _
    exact ⟨fun c => hd c.symm, ht⟩
  have fresh : ∀ (t : State String L H α), "gx" ∉ t.keys → ∀ t', newFields t ["rho_g"] = some t' → "gx" ∉ t'.keys := by
    intro t ht t' e
    unfold newFields at e
    rw [Option.bind_eq_some_iff] at e
    obtain ⟨t1, e1, e⟩ := e
    have k1 : t1.keys = t.keys := by
      split_ifs at e1
      · unfold extendFields at e1
        split_ifs at e1
        rw [Option.some.injEq] at e1
        rw [← e1]
      · rw [Option.some.injEq] at e1
        rw [← e1]
    rw [List.foldlM_cons, Option.bind_eq_bind, Option.bind_eq_some_iff] at e
    obtain ⟨t2, e2, e⟩ := e
    rw [List.foldlM_nil] at e
    change some t2 = some t' at e
    rw [Option.some.injEq] at e
    subst e
    unfold newField at e2
    split_ifs at e2
    rw [Option.map_eq_some_iff] at e2
    obtain ⟨i, -, e2⟩ := e2
    rw [← e2]
    simp only [Finset.mem_insert, not_or]
    exact ⟨by decide, by rw [k1]; exact ht⟩
  unfold step flowPart createGravity
  rw [if_neg (by rw [hu]; decide), Option.bind_some]
  cases h1 : communicate W (exchanged S) s with
  | none => rfl
  | some s1 =>
    have hx1 := key _ _ _ _ hx _ h1
    rw [Option.bind_some]
    have hnone : gravityPart S W s1 = none := by
      unfold gravityPart
      rw [hS]
      simp only [updateGravity, Option.bind_some]
      rw [Option.bind_eq_none_iff]
      intro t ht
      have htx : "gx" ∉ t.keys := by
        by_cases hd : S.density
        · rw [if_pos hd, Option.bind_eq_some_iff] at ht
          obtain ⟨t3, e3, e4⟩ := ht
          rw [Option.bind_eq_some_iff] at e3
          obtain ⟨t2, e2, e3⟩ := e3
          rw [Option.bind_eq_some_iff] at e2
          obtain ⟨t1, e1, e2⟩ := e2
          exact move _ _ _ (by decide) (move _ _ _ (by decide) (key _ _ _ _ (fresh _ hx1 _ e1) _ e2) _ e3) _ e4
        · rw [if_neg hd, Option.some.injEq] at ht
          rw [← ht]; exact hx1
      unfold communicate kernel
      rw [accessor_none (n := "gx") (by decide) htx]
      rfl
    rw [hnone]
    rfl

/-- **C99** (ids) For every registered hydro solver, the fields that the time loop finds by searching "MHD" and "GLM" in
the name of the solver are the fields of the state of the solver. -/
theorem C99_ids : ∀ p ∈ registered, ∀ S : Setup, S.hydroId = p.1 →
    movedBack S = p.2 ∧ makeHydro S.hydroId = some (some p.2) := by
  intro p hp S hS
  have h : makeHydro S.hydroId = some (some p.2) := by
    rw [hS]
    exact (by decide : ∀ p ∈ registered, makeHydro p.1 = some (some p.2)) p hp
  exact ⟨movedBack_some h, h⟩

end Verif.StepFields
