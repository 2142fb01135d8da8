import Verif.Cosmo.Friedmann
import Verif.Cosmo.Lookup
import Verif.TimeLoop.Run

/-!
# C100: end of a cosmological run

Model of `core/src/DyabloTimeLoop.h` for `t_end_var = "aexp"`: L126-131, L137-147, L184-203, L206-210, L518-525, L596-622, with
`core/src/Cosmo.h` L103-151 and `core/src/compute_dt/Compute_dt_cosmology.cpp` L31-39. Arithmetic is exact, and the integral is
taken for the result of `romberg` (for which see C61).
-/

namespace Verif.TimeLoop

open Cosmo

/-! ### Model -/

/-- `Cosmo.h` L144-146, with the integral itself. -/
noncomputable def dtTo (omegaM omegaV a da : ℝ) : ℝ :=
  -(1 / 2) * Real.sqrt omegaM * ∫ x in (a * da)..a, faexp omegaM omegaV x

/-- The parameters of the run: `Cosmo.h` L93-99 (the manager of the time loop and that of the time step kernel read the same),
and whether `Compute_dt_cosmology` is among the time step kernels. -/
structure CosmoConfig where
  omegaM : ℝ
  omegaV : ℝ
  aStart : ℝ
  aEnd : ℝ
  da : ℝ
  size : ℕ
  limited : Bool

/-- `DyabloTimeLoop.h` L83-88. -/
structure CosmoHandler where
  iterEnd : ℤ
  tEnd : ℝ
  useTEnd : Bool
  omegaM : ℝ
  omegaV : ℝ

/-- The entries `iter`, `time`, `aexp` and `dt` of the scalar data. -/
structure CosmoScalars where
  iter : ℤ
  time : ℝ
  aexp : ℝ
  dt : ℝ

/-- L128. -/
noncomputable def tEndEpsilon : ℝ := 2 / 10 ^ 8

/-- L138-147. -/
noncomputable def CosmoHandler.stop (h : CosmoHandler) (s : CosmoScalars) : Bool :=
  (decide (0 < h.iterEnd) && decide (h.iterEnd ≤ s.iter)) || (h.useTEnd && decide (h.tEnd - tEndEpsilon ≤ s.aexp))

/-- L185-203. -/
noncomputable def CosmoHandler.correctDt (h : CosmoHandler) (s : CosmoScalars) : CosmoScalars :=
  if h.useTEnd then { s with dt := min s.dt (dtTo h.omegaM h.omegaV s.aexp (h.tEnd / s.aexp)) } else s

/-- `Cosmo.h` L103-106 with the table of L113-124. -/
noncomputable def CosmoConfig.expansion (c : CosmoConfig) (time : ℝ) : Option ℝ :=
  timeToExpansion (friedmann c.omegaM c.omegaV) c.aStart c.aEnd c.size time

/-- `Cosmo.h` L148-151. -/
noncomputable def CosmoConfig.dtLimit (c : CosmoConfig) (a : ℝ) : ℝ := dtTo c.omegaM c.omegaV a c.da

/-- `DyabloTimeLoop.h` L206-210. -/
def CosmoScalars.next (s : CosmoScalars) : CosmoScalars := { s with iter := s.iter + 1, time := s.time + s.dt }

/-- L596-622 and L746: `dts` are the results of the other time step kernels in this step (the order does not matter for the
minimum). `none`: a read outside of the table, or the assertion of `Compute_dt_cosmology.cpp` L36 fails. -/
noncomputable def cosmoStep (c : CosmoConfig) (h : CosmoHandler) (big : ℝ) (dts : List ℝ) (s : CosmoScalars) :
    Option CosmoScalars :=
  match c.expansion s.time with
  | none => none
  | some a =>
    if c.limited && decide (c.dtLimit a ≤ 0) then none
    else some (h.correctDt
      { s with aexp := a, dt := minDt big (dts ++ if c.limited then [c.dtLimit a] else []) }).next

/-- What becomes of the loop. -/
inductive CosmoOutcome where
  | undefined
  | unfinished
  | finished (steps : List CosmoScalars)

/-- `DyabloTimeLoop.h` L518-525 for at most `fuel` steps, see `run`. -/
noncomputable def cosmoRun (c : CosmoConfig) (h : CosmoHandler) (big : ℝ) (kernels : ℕ → List ℝ) (interrupted : ℕ → Bool) :
    ℕ → ℕ → CosmoScalars → CosmoOutcome
  | 0, _, _ => .unfinished
  | fuel + 1, n, s =>
    match cosmoStep c h big (kernels n) s with
    | none => .undefined
    | some s' =>
      if h.stop s' || interrupted n then .finished [s']
      else
        match cosmoRun c h big kernels interrupted fuel (n + 1) s' with
        | .finished l => .finished (s' :: l)
        | o => o

/-! ### Hypotheses -/

/-- A configuration that makes sense. -/
structure CosmoConfig.Ok (c : CosmoConfig) : Prop where
  matter : Universe c.omegaM c.omegaV
  start : 0 < c.aStart
  order : c.aStart < c.aEnd * (11 / 10)
  size : 2 ≤ c.size

/-- The entries of the table of expansion factors. -/
noncomputable def CosmoConfig.entries (c : CosmoConfig) : List ℝ := lookupA c.aStart c.aEnd c.size

/-- The time of an expansion factor. -/
noncomputable def CosmoConfig.timeOf (c : CosmoConfig) (a : ℝ) : ℝ := friedmann c.omegaM c.omegaV a

/-- The handler has read the same universe. -/
def CosmoHandler.Agrees (h : CosmoHandler) (c : CosmoConfig) : Prop := h.omegaM = c.omegaM ∧ h.omegaV = c.omegaV

/-! ### The table -/

theorem dtTo_eq {M V : ℝ} (u : Universe M V) {a da : ℝ} (ha : 0 < a) (hda : 0 < da) :
    dtTo M V a da = friedmann M V (a * da) - friedmann M V a := by
  rw [friedmann_sub u ha (mul_pos ha hda)]
  unfold dtTo
  rw [intervalIntegral.integral_symm]
  ring

theorem dtTo_div {M V : ℝ} (u : Universe M V) {a b : ℝ} (ha : 0 < a) (hb : 0 < b) :
    dtTo M V a (b / a) = friedmann M V b - friedmann M V a := by
  rw [dtTo_eq u ha (div_pos hb ha), mul_div_cancel₀ _ ha.ne']

section Table

variable {c : CosmoConfig}

theorem entries_pos (k : c.Ok) {a : ℝ} (ha : a ∈ c.entries) : c.aStart ≤ a ∧ a ≤ c.aEnd * (11 / 10) := by
  obtain ⟨h1, h2, h3, h4⟩ := C55_table k.order k.size
  obtain ⟨i, hi, rfl⟩ := List.getElem_of_mem ha
  have hi' : i < (lookupA c.aStart c.aEnd c.size).length := hi
  constructor
  · refine h1.le (Nat.zero_le i) ?_ (List.getElem?_eq_getElem hi')
    rw [← List.head?_eq_getElem?]
    exact h3
  · refine h1.le (show i ≤ (lookupA c.aStart c.aEnd c.size).length - 1 by omega) (List.getElem?_eq_getElem hi') ?_
    rw [← List.getLast?_eq_getElem?]
    exact h4

theorem times_increasing (k : c.Ok) : Increasing (lookupT (friedmann c.omegaM c.omegaV) c.aStart c.aEnd c.size) := by
  obtain ⟨h1, -, -, -⟩ := C55_table k.order k.size
  unfold Increasing lookupT
  rw [List.pairwise_map]
  refine List.Pairwise.imp_of_mem ?_ h1
  intro a b ha _ hab
  exact friedmann_strict k.matter (lt_of_lt_of_le k.start (entries_pos k ha).1) hab

theorem tables_length (c : CosmoConfig) : (lookupT (friedmann c.omegaM c.omegaV) c.aStart c.aEnd c.size).length =
    (lookupA c.aStart c.aEnd c.size).length := by
  unfold lookupT
  rw [List.length_map]

/-- A point of the polygon is below the curve. -/
theorem polygon_below (k : c.Ok) {t a : ℝ}
    (h : OnGraph (lookupT (friedmann c.omegaM c.omegaV) c.aStart c.aEnd c.size) (lookupA c.aStart c.aEnd c.size) t a) :
    0 < a ∧ t ≤ c.timeOf a := by
  obtain ⟨i, t0, t1, a0, a1, s, e1, e2, e3, e4, s0, s1, et, ea⟩ := h
  have p0 : 0 < a0 := lt_of_lt_of_le k.start (entries_pos k (List.mem_of_getElem? e3)).1
  have p1 : 0 < a1 := lt_of_lt_of_le k.start (entries_pos k (List.mem_of_getElem? e4)).1
  unfold lookupT at e1 e2
  rw [List.getElem?_map, e3] at e1
  rw [List.getElem?_map, e4] at e2
  obtain rfl := Option.some.inj e1
  obtain rfl := Option.some.inj e2
  have := (friedmann_concave k.matter).concaveOn.2 (show a0 ∈ Set.Ioi 0 from p0) (show a1 ∈ Set.Ioi 0 from p1)
    (show 0 ≤ 1 - s by linarith) s0 (by ring)
  simp only [smul_eq_mul] at this
  have e : a = (1 - s) * a0 + s * a1 := by rw [ea]; ring
  refine ⟨?_, ?_⟩
  · rw [e]
    rcases s0.eq_or_lt with h | h
    · rw [← h]; linarith
    · have := mul_pos h p1
      have := mul_nonneg (show 0 ≤ 1 - s by linarith) p0.le
      linarith
  · unfold CosmoConfig.timeOf
    rw [e, et]
    linarith

theorem expansion_graph (k : c.Ok) {t a : ℝ} (h : c.expansion t = some a) :
    OnGraph (lookupT (friedmann c.omegaM c.omegaV) c.aStart c.aEnd c.size) (lookupA c.aStart c.aEnd c.size) t a :=
  (lookup_graph (times_increasing k) (tables_length c) h).1

theorem expansion_below (k : c.Ok) {t a : ℝ} (h : c.expansion t = some a) : 0 < a ∧ t ≤ c.timeOf a :=
  polygon_below k (expansion_graph k h)

/-- An entry is a point of the polygon. -/
theorem entry_graph (k : c.Ok) {i : ℕ} {b : ℝ} (hb : c.entries[i]? = some b) :
    OnGraph (lookupT (friedmann c.omegaM c.omegaV) c.aStart c.aEnd c.size) (lookupA c.aStart c.aEnd c.size) (c.timeOf b) b := by
  have hl : 2 ≤ (lookupT (friedmann c.omegaM c.omegaV) c.aStart c.aEnd c.size).length := by
    rw [tables_length, (C55_table k.order k.size).2.1]
    exact k.size
  refine OnGraph.point (tables_length c) hl ?_ hb
  unfold lookupT
  rw [List.getElem?_map]
  change Option.map _ c.entries[i]? = _
  rw [hb]
  rfl

theorem graph_entry_le (k : c.Ok) {t a b : ℝ} (hb : b ∈ c.entries)
    (h : OnGraph (lookupT (friedmann c.omegaM c.omegaV) c.aStart c.aEnd c.size) (lookupA c.aStart c.aEnd c.size) t a) :
    (t ≤ c.timeOf b ↔ a ≤ b) ∧ (c.timeOf b < t ↔ b < a) := by
  obtain ⟨i, hi⟩ := List.getElem?_of_mem hb
  rcases h.cmp (times_increasing k) (C55_table k.order k.size).1 (entry_graph k hi) with ⟨h1, h2⟩ | ⟨h1, h2⟩ | ⟨h1, h2⟩
  · exact ⟨⟨fun _ => h2.le, fun _ => h1.le⟩, ⟨fun h => absurd h1 (not_lt.2 h.le), fun h => absurd h2 (not_lt.2 h.le)⟩⟩
  · rw [h1, h2]
    simp
  · exact ⟨⟨fun h => absurd h1 (not_lt.2 h), fun h => absurd h2 (not_lt.2 h)⟩, ⟨fun _ => h2, fun _ => h1⟩⟩

/-- Times before that of an entry give expansion factors before it. -/
theorem expansion_le (k : c.Ok) {t a b : ℝ} (h : c.expansion t = some a) (hb : b ∈ c.entries) (ht : t ≤ c.timeOf b) :
    a ≤ b := (graph_entry_le k hb (expansion_graph k h)).1.1 ht

theorem start_mem (k : c.Ok) : c.aStart ∈ c.entries :=
  List.mem_of_mem_head? (by
    change c.aStart ∈ (lookupA c.aStart c.aEnd c.size).head?
    rw [(C55_table k.order k.size).2.2.1]
    rfl)

theorem last_mem (k : c.Ok) : c.aEnd * (11 / 10) ∈ c.entries := List.mem_of_getLast? (C55_table k.order k.size).2.2.2

/-- Where the table is defined. -/
theorem expansion_defined (k : c.Ok) {t : ℝ} (h1 : c.timeOf c.aStart < t) (h2 : t ≤ c.timeOf (c.aEnd * (11 / 10))) :
    ∃ a, c.expansion t = some a ∧ c.aStart < a ∧ a ≤ c.aEnd * (11 / 10) := by
  obtain ⟨-, -, e3, e4⟩ := C55_table k.order k.size
  obtain ⟨a, ha, -⟩ := C55_lookup_partial (tables_length c) (x0 := c.timeOf c.aStart) (xl := c.timeOf (c.aEnd * (11 / 10)))
    (by unfold lookupT; rw [List.head?_map, e3]; rfl) (by unfold lookupT; rw [List.getLast?_map, e4]; rfl) h1 h2
  exact ⟨a, ha, (graph_entry_le k (start_mem k) (expansion_graph k ha)).2.1 h1, expansion_le k ha (last_mem k) h2⟩

end Table

/-! ### Steps -/

section Steps

variable {c : CosmoConfig} {h : CosmoHandler} {big : ℝ}

theorem cosmoStep_facts {dts : List ℝ} {s s' : CosmoScalars} (hs : cosmoStep c h big dts s = some s') :
    c.expansion s.time = some s'.aexp ∧ s'.iter = s.iter + 1 ∧ s'.time = s.time + s'.dt ∧ (∀ x ∈ dts, s'.dt ≤ x) ∧
      (c.limited = true → 0 < c.dtLimit s'.aexp ∧ s'.dt ≤ c.dtLimit s'.aexp) ∧
      (h.useTEnd = true → s'.dt ≤ dtTo h.omegaM h.omegaV s'.aexp (h.tEnd / s'.aexp)) ∧
      ∀ δ ≤ big, (∀ x ∈ dts, δ ≤ x) → (c.limited = true → δ ≤ c.dtLimit s'.aexp) →
        (h.useTEnd = true → δ ≤ dtTo h.omegaM h.omegaV s'.aexp (h.tEnd / s'.aexp)) → δ ≤ s'.dt := by
  unfold cosmoStep at hs
  split at hs
  · simp at hs
  · rename_i a ha
    split at hs
    · simp at hs
    · rename_i hc
      have hl : c.limited = true → 0 < c.dtLimit a := by
        intro hl
        rw [hl] at hc
        simpa using hc
      have hs' := Option.some.inj hs
      subst hs'
      have key : ∀ x ∈ dts ++ (if c.limited then [c.dtLimit a] else []),
          minDt big (dts ++ if c.limited then [c.dtLimit a] else []) ≤ x := fun x hx => minDt_le hx
      have low : ∀ δ ≤ big, (∀ x ∈ dts, δ ≤ x) → (c.limited = true → δ ≤ c.dtLimit a) →
          δ ≤ minDt big (dts ++ if c.limited then [c.dtLimit a] else []) := by
        intro δ hb hd hc'
        refine le_minDt hb fun x hx => ?_
        rcases List.mem_append.1 hx with hx | hx
        · exact hd x hx
        · split at hx
          · rename_i hlim
            rw [List.mem_singleton.1 hx]
            exact hc' hlim
          · simp at hx
      generalize minDt big (dts ++ if c.limited then [c.dtLimit a] else []) = m at key low
      have lim : c.limited = true → m ≤ c.dtLimit a := fun hl' => key _ (List.mem_append.2 (Or.inr (by rw [if_pos hl']; simp)))
      unfold CosmoHandler.correctDt
      cases hu : h.useTEnd with
      | false =>
        simp only [Bool.false_eq_true, if_false, CosmoScalars.next]
        exact ⟨ha, trivial, trivial, fun x hx => key x (List.mem_append.2 (Or.inl hx)), fun hl' => ⟨hl hl', lim hl'⟩,
          False.elim, fun δ h1 h2 h3 _ => low δ h1 h2 h3⟩
      | true =>
        simp only [if_true, CosmoScalars.next]
        exact ⟨ha, trivial, trivial, fun x hx => (min_le_left _ _).trans (key x (List.mem_append.2 (Or.inl hx))),
          fun hl' => ⟨hl hl', (min_le_left _ _).trans (lim hl')⟩, fun _ => min_le_right _ _,
          fun δ h1 h2 h3 h4 => le_min (low δ h1 h2 h3) (h4 trivial)⟩

theorem cosmoStep_defined {dts : List ℝ} {s : CosmoScalars} {a : ℝ} (ha : c.expansion s.time = some a)
    (hl : c.limited = true → 0 < c.dtLimit a) : ∃ s', cosmoStep c h big dts s = some s' ∧ s'.aexp = a := by
  unfold cosmoStep
  rw [ha]
  have hc : ¬ (c.limited && decide (c.dtLimit a ≤ 0)) = true := by
    rw [Bool.and_eq_true, decide_eq_true_eq, not_and, not_le]
    exact hl
  simp only [if_neg hc]
  refine ⟨_, rfl, ?_⟩
  unfold CosmoHandler.correctDt CosmoScalars.next
  split <;> rfl

theorem dtLimit_pos (u : Universe c.omegaM c.omegaV) (hda : 1 < c.da) {a : ℝ} (ha : 0 < a) : 0 < c.dtLimit a := by
  unfold CosmoConfig.dtLimit
  rw [dtTo_eq u ha (by linarith)]
  have : a < a * c.da := by nlinarith
  linarith [friedmann_strict u ha this]

/-- The time reached by a step. -/
theorem step_time_le (k : c.Ok) (ag : h.Agrees c) (hu : h.useTEnd = true) (ht : 0 < h.tEnd) {dts : List ℝ}
    {s s' : CosmoScalars} (hs : cosmoStep c h big dts s = some s') : s'.time ≤ c.timeOf h.tEnd := by
  obtain ⟨e1, -, e3, -, -, e6, -⟩ := cosmoStep_facts hs
  obtain ⟨pa, below⟩ := expansion_below k e1
  have := e6 hu
  rw [ag.1, ag.2, dtTo_div k.matter pa ht] at this
  unfold CosmoConfig.timeOf at *
  linarith

theorem step_time_da (k : c.Ok) (hl : c.limited = true) (hda : 0 < c.da) {dts : List ℝ}
    {s s' : CosmoScalars} (hs : cosmoStep c h big dts s = some s') : s'.time ≤ c.timeOf (s'.aexp * c.da) := by
  obtain ⟨e1, -, e3, -, e5, -, -⟩ := cosmoStep_facts hs
  obtain ⟨pa, below⟩ := expansion_below k e1
  have := (e5 hl).2
  unfold CosmoConfig.dtLimit at this
  rw [dtTo_eq k.matter pa hda] at this
  unfold CosmoConfig.timeOf at *
  linarith

variable {kernels : ℕ → List ℝ} {interrupted : ℕ → Bool}

/-- The steps of a run. -/
theorem cosmoRun_chain {fuel n : ℕ} {s : CosmoScalars} {l : List CosmoScalars}
    (hr : cosmoRun c h big kernels interrupted fuel n s = .finished l) :
    (∀ k (hk : k < l.length), cosmoStep c h big (kernels (n + k)) ((s :: l)[k]'(by simp; omega)) = some l[k]) ∧
      (∀ k (hk : k + 1 < l.length), (h.stop l[k] || interrupted (n + k)) = false) ∧
      ∃ m, ∃ hm : m < l.length, m + 1 = l.length ∧ (h.stop l[m] || interrupted (n + m)) = true := by
  induction fuel generalizing n s l with
  | zero => simp [cosmoRun] at hr
  | succ fuel ih =>
    unfold cosmoRun at hr
    split at hr
    · simp at hr
    · rename_i s' hs
      split at hr
      · rename_i hstop
        obtain rfl := CosmoOutcome.finished.inj hr
        refine ⟨fun k hk => ?_, fun k hk => ?_, 0, by simp, rfl, hstop⟩
        · obtain rfl : k = 0 := by simpa using hk
          exact hs
        · simp at hk
      · rename_i hstop
        split at hr
        · rename_i l' hr'
          obtain rfl := CosmoOutcome.finished.inj hr
          obtain ⟨i1, i2, m, hm, i3, i4⟩ := ih hr'
          refine ⟨fun k hk => ?_, fun k hk => ?_, m + 1, by simpa using hm, by simp [i3], ?_⟩
          · cases k with
            | zero => exact hs
            | succ k =>
              have := i1 k (by simpa using hk)
              rw [show n + 1 + k = n + (k + 1) by omega] at this
              exact this
          · cases k with
            | zero => simpa using hstop
            | succ k =>
              have := i2 k (by simpa using hk)
              rw [show n + 1 + k = n + (k + 1) by omega] at this
              exact this
          · rw [show n + 1 + m = n + (m + 1) by omega] at i4
            exact i4
        · rename_i o hne
          exact absurd hr (hne l)

end Steps

/-! ### C100 -/

variable {c : CosmoConfig} {h : CosmoHandler} {big : ℝ} {kernels : ℕ → List ℝ} {interrupted : ℕ → Bool}

/-- **C100** (partial): the time never passes that of the final expansion factor, steps go forward while the expansion factor
is below the final one, and no expansion factor passes the first entry of the table that is not below the final one. The run
ends where it should. Missing: that the expansion factor does not pass the final one and that the last step does not go
backward, see `C100_backward_fails`. -/
theorem C100_run_partial (k : c.Ok) (ag : h.Agrees c) (hu : h.useTEnd = true) (ht : 0 < h.tEnd) (hb : 0 < big)
    (hk : ∀ n, ∀ x ∈ kernels n, 0 < x) {fuel n : ℕ} {s : CosmoScalars} (hs : s.time ≤ c.timeOf h.tEnd)
    {l : List CosmoScalars} (hr : cosmoRun c h big kernels interrupted fuel n s = .finished l) :
    (∀ x ∈ l, x.time ≤ c.timeOf h.tEnd ∧ (x.aexp < h.tEnd → 0 < x.dt) ∧ ∀ b ∈ c.entries, h.tEnd ≤ b → x.aexp ≤ b) ∧
      (∀ x ∈ l.dropLast, x.aexp < h.tEnd - tEndEpsilon ∧ 0 < x.dt) ∧
      ∃ x, l.getLast? = some x ∧ (h.tEnd - tEndEpsilon ≤ x.aexp ∨ (0 < h.iterEnd ∧ h.iterEnd ≤ x.iter) ∨
        interrupted (n + (l.length - 1)) = true) := by
  obtain ⟨h1, h2, m, hm, h3, h4⟩ := cosmoRun_chain hr
  have eps : 0 < tEndEpsilon := by unfold tEndEpsilon; norm_num
  have fwd : ∀ k (hk' : k < l.length), l[k].aexp < h.tEnd → 0 < l[k].dt := by
    intro j hj hlt
    obtain ⟨e1, -, -, -, e5, -, e7⟩ := cosmoStep_facts (h1 j hj)
    obtain ⟨pa, -⟩ := expansion_below k e1
    have p1 : 0 < dtTo h.omegaM h.omegaV l[j].aexp (h.tEnd / l[j].aexp) := by
      rw [ag.1, ag.2, dtTo_div k.matter pa ht]
      linarith [friedmann_strict k.matter pa hlt]
    -- the smallest of finitely many positive numbers
    obtain ⟨δ, hδ, b1, b2⟩ : ∃ δ > 0, δ ≤ big ∧ ∀ x ∈ kernels (n + j), δ ≤ x :=
      ⟨minDt big (kernels (n + j)), by
        have key : ∀ (l : List ℝ) (a : ℝ), 0 < a → (∀ x ∈ l, 0 < x) → 0 < l.foldl min a := by
          intro l
          induction l with
          | nil => intro a ha _; exact ha
          | cons b l ih =>
            intro a ha hx
            exact ih _ (lt_min ha (hx b (by simp))) fun x hx' => hx x (by simp [hx'])
        exact key _ _ hb (hk _), by
        have : minDt big (big :: kernels (n + j)) ≤ big := minDt_le (by simp)
        simpa [minDt] using this, fun x hx => minDt_le hx⟩
    by_cases hl : c.limited = true
    · have := e7 (min (min δ (c.dtLimit l[j].aexp)) (dtTo h.omegaM h.omegaV l[j].aexp (h.tEnd / l[j].aexp)))
        ((min_le_left _ _).trans ((min_le_left _ _).trans b1))
        (fun x hx => (min_le_left _ _).trans ((min_le_left _ _).trans (b2 x hx)))
        (fun _ => (min_le_left _ _).trans (min_le_right _ _)) (fun _ => min_le_right _ _)
      exact lt_of_lt_of_le (lt_min (lt_min hδ (e5 hl).1) p1) this
    · have := e7 (min δ (dtTo h.omegaM h.omegaV l[j].aexp (h.tEnd / l[j].aexp)))
        ((min_le_left _ _).trans b1) (fun x hx => (min_le_left _ _).trans (b2 x hx)) (fun hl' => absurd hl' hl)
        (fun _ => min_le_right _ _)
      exact lt_of_lt_of_le (lt_min hδ p1) this
  have timeLe : ∀ k (hk' : k < (s :: l).length), (s :: l)[k].time ≤ c.timeOf h.tEnd := by
    intro j hj
    cases j with
    | zero => exact hs
    | succ j => exact step_time_le k ag hu ht (h1 j (by simpa using hj))
  refine ⟨fun x hx => ?_, fun x hx => ?_, l[m], ?_, ?_⟩
  · obtain ⟨j, hj, rfl⟩ := List.getElem_of_mem hx
    refine ⟨timeLe (j + 1) (by simpa using hj), fwd j hj, fun b hb' htb => ?_⟩
    refine expansion_le k (cosmoStep_facts (h1 j hj)).1 hb' ((timeLe j (by simp; omega)).trans ?_)
    exact friedmann_le k.matter ht htb
  · obtain ⟨j, hj, rfl⟩ := List.getElem_of_mem hx
    rw [List.length_dropLast] at hj
    have hj' : j + 1 < l.length := by omega
    have := h2 j hj'
    rw [List.getElem_dropLast]
    simp only [CosmoHandler.stop, hu, Bool.true_and, Bool.or_eq_false_iff, decide_eq_false_iff_not, not_le] at this
    exact ⟨this.1.2, fwd j (by omega) (by linarith [this.1.2])⟩
  · rw [List.getLast?_eq_getElem?, ← h3, Nat.add_sub_cancel, List.getElem?_eq_getElem hm]
  · rw [← h3, Nat.add_sub_cancel]
    simp only [CosmoHandler.stop, hu, Bool.true_and, Bool.or_eq_true, Bool.and_eq_true, decide_eq_true_eq] at h4
    rcases h4 with (h4 | h4) | h4
    · exact Or.inr (Or.inl h4)
    · exact Or.inl h4
    · exact Or.inr (Or.inr h4)

/-- **C100** (steps): every step is counted, advances the time by its `dt`, and is at most what each of the kernels allows.
Without `use_tEnd` the smallest of these is taken, and only the number of iterations or an interruption ends the loop. -/
theorem C100_steps {fuel n : ℕ} {s : CosmoScalars} {l : List CosmoScalars}
    (hr : cosmoRun c h big kernels interrupted fuel n s = .finished l) :
    (∀ j (hj : j < l.length), l[j].iter = s.iter + j + 1 ∧ l[j].time = ((s :: l)[j]'(by simp; omega)).time + l[j].dt ∧
      ∀ x ∈ kernels (n + j), l[j].dt ≤ x) ∧
      (h.useTEnd = false → c.limited = false →
        (∀ j (hj : j < l.length), l[j].dt ∈ big :: kernels (n + j)) ∧
        ∃ x, l.getLast? = some x ∧ ((0 < h.iterEnd ∧ h.iterEnd ≤ x.iter) ∨ interrupted (n + (l.length - 1)) = true)) := by
  obtain ⟨h1, -, m, hm, h3, h4⟩ := cosmoRun_chain hr
  refine ⟨fun j hj => ⟨?_, (cosmoStep_facts (h1 j hj)).2.2.1, (cosmoStep_facts (h1 j hj)).2.2.2.1⟩, fun hu hl => ⟨fun j hj => ?_,
    l[m], ?_, ?_⟩⟩
  · induction j with
    | zero =>
      have := (cosmoStep_facts (h1 0 hj)).2.1
      simpa using this
    | succ j ih =>
      have e := (cosmoStep_facts (h1 (j + 1) hj)).2.1
      have e' := ih (by omega)
      rw [e]
      push_cast
      change l[j].iter + 1 = _
      rw [e']
      ring
  · by_contra hne
    have hm' : ∀ (l : List ℝ) (a : ℝ), l.foldl min a ∈ a :: l := by
      intro l
      induction l with
      | nil => intro a; simp
      | cons b l ih =>
        intro a
        rw [List.foldl_cons]
        rcases List.mem_cons.1 (ih (min a b)) with h | h
        · rw [h]
          rcases min_choice a b with h | h <;> simp [h]
        · simp [h]
    have hs := h1 j hj
    unfold cosmoStep at hs
    split at hs
    · simp at hs
    · simp only [hl, Bool.false_and, Bool.false_eq_true, if_false, List.append_nil, Option.some.injEq] at hs
      refine hne ?_
      rw [← hs]
      unfold CosmoHandler.correctDt CosmoScalars.next
      simp only [hu, Bool.false_eq_true, if_false]
      exact hm' _ _
  · rw [List.getLast?_eq_getElem?, ← h3, Nat.add_sub_cancel, List.getElem?_eq_getElem hm]
  · rw [← h3, Nat.add_sub_cancel]
    simpa only [CosmoHandler.stop, hu, Bool.false_and, Bool.or_false, Bool.or_eq_true, Bool.and_eq_true,
      decide_eq_true_eq] using h4

/-- **C100** (growth): with `Compute_dt_cosmology` the expansion factor of the next step does not pass the first entry of the
table that is not below `da` times the present one. -/
theorem C100_growth (k : c.Ok) (hl : c.limited = true) (hda : 0 < c.da) {fuel n : ℕ} {s : CosmoScalars}
    {l : List CosmoScalars} (hr : cosmoRun c h big kernels interrupted fuel n s = .finished l) (j : ℕ)
    (hj : j + 1 < l.length) {b : ℝ} (hb : b ∈ c.entries) (hab : l[j].aexp * c.da ≤ b) : l[j + 1].aexp ≤ b := by
  obtain ⟨h1, -, -⟩ := cosmoRun_chain hr
  have e0 := h1 j (by omega)
  have e1 := (cosmoStep_facts (h1 (j + 1) hj)).1
  have pa := (expansion_below k (cosmoStep_facts e0).1).1
  exact expansion_le k e1 hb ((step_time_da k hl hda e0).trans (friedmann_le k.matter (mul_pos pa hda) hab))

/-- **C100** (end): a run that starts after the first entry of the table ends, without reading outside of the table, if the
table reaches the final expansion factor and the time steps do not become arbitrarily small. -/
theorem C100_ends (k : c.Ok) (ag : h.Agrees c) (hu : h.useTEnd = true) (ht : tEndEpsilon < h.tEnd)
    (htab : h.tEnd ≤ c.aEnd * (11 / 10)) (hda : c.limited = true → 1 < c.da) {δ : ℝ} (hδ : 0 < δ) (hb : δ ≤ big)
    (hk : ∀ n, ∀ x ∈ kernels n, δ ≤ x) {n : ℕ} {s : CosmoScalars} (hs0 : c.timeOf c.aStart < s.time)
    (hs : s.time ≤ c.timeOf h.tEnd) : ∃ fuel l, cosmoRun c h big kernels interrupted fuel n s = .finished l := by
  have eps : 0 < tEndEpsilon := by unfold tEndEpsilon; norm_num
  have u := k.matter
  have pt : 0 < h.tEnd := lt_trans eps ht
  -- the smallest step before the end
  obtain ⟨η, hη, b1, b2, b3⟩ : ∃ η > 0, η ≤ δ ∧ η ≤ c.timeOf h.tEnd - c.timeOf (h.tEnd - tEndEpsilon) ∧
      (c.limited = true → ∀ a, c.aStart < a → a ≤ h.tEnd → η ≤ c.dtLimit a) := by
    have p1 : 0 < c.timeOf h.tEnd - c.timeOf (h.tEnd - tEndEpsilon) := by
      have := friedmann_strict u (show 0 < h.tEnd - tEndEpsilon by linarith) (show h.tEnd - tEndEpsilon < h.tEnd by linarith)
      unfold CosmoConfig.timeOf
      linarith
    by_cases hl : c.limited = true
    · have hd := hda hl
      have c0 : 0 < 1 / 2 * Real.sqrt c.omegaM := mul_pos one_half_pos (Real.sqrt_pos.2 u.matter)
      have c1 : 0 < c.aStart * (c.da - 1) := mul_pos k.start (by linarith)
      have c2 : 0 < faexp c.omegaM c.omegaV (h.tEnd * c.da) := faexp_pos u (mul_pos pt (by linarith))
      refine ⟨min (min δ _) (1 / 2 * Real.sqrt c.omegaM * (c.aStart * (c.da - 1) * faexp c.omegaM c.omegaV (h.tEnd * c.da))),
        lt_min (lt_min hδ p1) (mul_pos c0 (mul_pos c1 c2)), (min_le_left _ _).trans (min_le_left _ _),
        (min_le_left _ _).trans (min_le_right _ _), fun _ a ha ha' => (min_le_right _ _).trans ?_⟩
      have pa : 0 < a := lt_trans k.start ha
      have hlt : a < a * c.da := by nlinarith
      unfold CosmoConfig.dtLimit
      rw [dtTo_eq u pa (by linarith), friedmann_sub u pa (lt_trans pa hlt)]
      refine mul_le_mul_of_nonneg_left (le_trans ?_ (integral_gt u pa hlt).le) c0.le
      have f1 : faexp c.omegaM c.omegaV (h.tEnd * c.da) ≤ faexp c.omegaM c.omegaV (a * c.da) :=
        faexp_anti u (lt_trans pa hlt) (mul_le_mul_of_nonneg_right ha' (by linarith))
      refine mul_le_mul ?_ f1 c2.le (by linarith)
      nlinarith
    · exact ⟨min δ _, lt_min hδ p1, min_le_left _ _, min_le_right _ _, fun hl' => absurd hl' hl⟩
  have main : ∀ (m n : ℕ) (s : CosmoScalars), c.timeOf c.aStart < s.time → s.time ≤ c.timeOf h.tEnd →
      c.timeOf h.tEnd - s.time < m * η → ∃ fuel l, cosmoRun c h big kernels interrupted fuel n s = .finished l := by
    intro m
    induction m with
    | zero =>
      intro n s _ h2 h3
      simp only [Nat.cast_zero, zero_mul] at h3
      exact absurd h3 (by linarith)
    | succ m ih =>
      intro n s h1 h2 h3
      obtain ⟨a, ha, ha1, ha2⟩ := expansion_defined k h1 (h2.trans (friedmann_le u pt htab))
      have pa : 0 < a := lt_trans k.start ha1
      obtain ⟨s', hs', ea⟩ := cosmoStep_defined (h := h) (big := big) (dts := kernels n) ha
        (fun hl => dtLimit_pos u (hda hl) pa)
      by_cases hstop : (h.stop s' || interrupted n) = true
      · exact ⟨1, [s'], by unfold cosmoRun; rw [hs']; simp only [if_pos hstop]⟩
      · have hlt : s'.aexp < h.tEnd - tEndEpsilon := by
          simp only [CosmoHandler.stop, hu, Bool.true_and, Bool.or_eq_true, decide_eq_true_eq, not_or, not_le] at hstop
          exact hstop.1.2
        obtain ⟨-, -, e3, -, -, -, e7⟩ := cosmoStep_facts hs'
        have hdt : η ≤ s'.dt := by
          refine e7 η (b1.trans hb) (fun x hx => b1.trans (hk n x hx)) (fun hl => ?_) (fun _ => ?_)
          · exact b3 hl _ (by rw [ea]; exact ha1) (by linarith)
          · rw [ag.1, ag.2, ea, dtTo_div u pa pt]
            have := friedmann_le u pa (show a ≤ h.tEnd - tEndEpsilon by rw [← ea]; exact hlt.le)
            unfold CosmoConfig.timeOf at b2
            linarith
        obtain ⟨fuel, l, hr⟩ := ih (n + 1) s' (by rw [e3]; linarith) (step_time_le k ag hu pt hs') (by
          rw [e3]
          push_cast at h3
          linarith)
        exact ⟨fuel + 1, s' :: l, by unfold cosmoRun; rw [hs']; simp only [if_neg hstop, hr]⟩
  obtain ⟨m, hm⟩ := exists_nat_gt ((c.timeOf h.tEnd - s.time) / η)
  exact main m n s hs0 hs (by rwa [div_lt_iff₀ hη] at hm)

/-- Disagreement: when a step that starts at an entry of the table is cut to end at the final expansion factor, and this factor
is not an entry, the next step passes it and goes backward in time. The loop ends only then. -/
theorem C100_backward_fails (k : c.Ok) (ag : h.Agrees c) (hu : h.useTEnd = true) (hi : h.iterEnd ≤ 0)
    {s : CosmoScalars} {i j n : ℕ} {a b0 b1 : ℝ} (ha : c.entries[i + 1]? = some a) (hs : s.time = c.timeOf a)
    (hat : a < h.tEnd - tEndEpsilon) (hb0 : c.entries[j]? = some b0) (hb1 : c.entries[j + 1]? = some b1) (ht0 : b0 < h.tEnd)
    (ht1 : h.tEnd < b1) (hda : c.limited = true → h.tEnd ≤ a * c.da) (hint : interrupted n = false)
    (hbig : c.timeOf h.tEnd - c.timeOf a ≤ big) (hk : ∀ x ∈ kernels n, c.timeOf h.tEnd - c.timeOf a ≤ x) :
    ∃ x y, cosmoRun c h big kernels interrupted 2 n s = .finished [x, y] ∧ x.aexp = a ∧ x.time = c.timeOf h.tEnd ∧
      h.tEnd < y.aexp ∧ y.dt < 0 ∧ y.time < x.time := by
  have eps : 0 < tEndEpsilon := by unfold tEndEpsilon; norm_num
  have u := k.matter
  have hmem := List.mem_of_getElem? ha
  have pa : 0 < a := lt_of_lt_of_le k.start (entries_pos k hmem).1
  have p0 : 0 < b0 := lt_of_lt_of_le k.start (entries_pos k (List.mem_of_getElem? hb0)).1
  have pt : 0 < h.tEnd := lt_trans p0 ht0
  have hd : c.limited = true → 1 < c.da := by
    intro hl
    have := hda hl
    by_contra hc
    nlinarith
  have ea : c.expansion s.time = some a := by
    rw [hs]
    refine C55_exact_partial (i := i) (times_increasing k) (C55_table k.order k.size).1 (tables_length c) ?_ ha
    unfold lookupT
    rw [List.getElem?_map]
    change Option.map _ c.entries[i + 1]? = _
    rw [ha]
    rfl
  obtain ⟨x, hx, xa⟩ := cosmoStep_defined (h := h) (big := big) (dts := kernels n) ea (fun hl => dtLimit_pos u (hd hl) pa)
  obtain ⟨-, -, e3, -, -, e6, e7⟩ := cosmoStep_facts hx
  have xt : x.time = c.timeOf h.tEnd := by
    have up := e6 hu
    have lo := e7 _ hbig hk (fun hl => by
      rw [xa]
      unfold CosmoConfig.dtLimit
      rw [dtTo_eq u pa (by linarith [hd hl])]
      have := friedmann_le u pt (hda hl)
      unfold CosmoConfig.timeOf
      linarith) (fun _ => by
      rw [xa, ag.1, ag.2, dtTo_div u pa pt]
      unfold CosmoConfig.timeOf
      linarith)
    rw [xa, ag.1, ag.2, dtTo_div u pa pt] at up
    rw [e3, hs]
    unfold CosmoConfig.timeOf at *
    linarith
  have hne : (h.stop x || interrupted n) = false := by
    simp only [CosmoHandler.stop, hint, hu, Bool.true_and, Bool.or_false, Bool.or_eq_false_iff, Bool.and_eq_false_iff,
      decide_eq_false_iff_not, not_le]
    exact ⟨Or.inl (by omega), by rw [xa]; exact hat⟩
  -- the second step
  have last := (entries_pos k (List.mem_of_getElem? hb1)).2
  have first := (entries_pos k (List.mem_of_getElem? hb0)).1
  obtain ⟨b, eb, -, -⟩ := expansion_defined k (t := x.time)
    (by rw [xt]; exact friedmann_strict u k.start (by linarith)) (by rw [xt]; exact friedmann_le u pt (by linarith))
  have past : h.tEnd < b := by
    have g := expansion_graph k eb
    have p1 : 0 < b1 := lt_trans pt ht1
    have hden : 0 < b1 - b0 := by linarith
    have w0 : 0 < (h.tEnd - b0) / (b1 - b0) := div_pos (by linarith) hden
    have w1 : (h.tEnd - b0) / (b1 - b0) < 1 := by rw [div_lt_one hden]; linarith
    have ew : (h.tEnd - b0) / (b1 - b0) * (b1 - b0) = h.tEnd - b0 := div_mul_cancel₀ _ hden.ne'
    generalize (h.tEnd - b0) / (b1 - b0) = w at w0 w1 ew
    have g' : OnGraph (lookupT (friedmann c.omegaM c.omegaV) c.aStart c.aEnd c.size) (lookupA c.aStart c.aEnd c.size)
        (c.timeOf b0 + w * (c.timeOf b1 - c.timeOf b0)) h.tEnd := by
      refine ⟨j, c.timeOf b0, c.timeOf b1, b0, b1, w, ?_, ?_, hb0, hb1, w0.le, w1.le, rfl, by linarith⟩
      · unfold lookupT
        rw [List.getElem?_map]
        change Option.map _ c.entries[j]? = _
        rw [hb0]
        rfl
      · unfold lookupT
        rw [List.getElem?_map]
        change Option.map _ c.entries[j + 1]? = _
        rw [hb1]
        rfl
    have conc := (friedmann_concave u).2 (show b0 ∈ Set.Ioi 0 from p0) (show b1 ∈ Set.Ioi 0 from p1) (by linarith)
      (show 0 < 1 - w by linarith) w0 (by ring)
    simp only [smul_eq_mul] at conc
    rw [show (1 - w) * b0 + w * b1 = h.tEnd by linarith] at conc
    rcases g'.cmp (times_increasing k) (C55_table k.order k.size).1 g with ⟨-, h2⟩ | ⟨h1, -⟩ | ⟨h1, -⟩
    · exact h2
    · rw [xt] at h1
      unfold CosmoConfig.timeOf at h1
      linarith
    · rw [xt] at h1
      unfold CosmoConfig.timeOf at h1
      linarith
  have pb : 0 < b := lt_trans pt past
  obtain ⟨y, hy, ya⟩ := cosmoStep_defined (h := h) (big := big) (dts := kernels (n + 1)) eb (fun hl => dtLimit_pos u (hd hl) pb)
  obtain ⟨-, -, y3, -, -, y6, -⟩ := cosmoStep_facts hy
  have ydt : y.dt < 0 := by
    have := y6 hu
    rw [ya, ag.1, ag.2, dtTo_div u pb pt] at this
    linarith [friedmann_strict u pt past]
  have hstop : (h.stop y || interrupted (n + 1)) = true := by
    simp only [CosmoHandler.stop, hu, Bool.true_and, Bool.or_eq_true, decide_eq_true_eq]
    exact Or.inl (Or.inr (by rw [ya]; linarith))
  refine ⟨x, y, ?_, xa, xt, by rw [ya]; exact past, ydt, by rw [y3]; linarith⟩
  have inner : cosmoRun c h big kernels interrupted 1 (n + 1) x = .finished [y] := by
    unfold cosmoRun
    rw [hy]
    simp only [if_pos hstop]
  unfold cosmoRun
  rw [hx]
  simp only [hne, Bool.false_eq_true, if_false, inner]

/-- Disagreement: the time loop reads `omegam` and `omegav`, the tables `omega_m` and `omega_v` with defaults 0.3 and 0.7. With
`omegam = 1` and `omegav = 0` only, a step that starts at an entry of the table and is cut at the end goes past the final
expansion factor, whatever the table. -/
theorem C100_two_universes_fails (k : c.Ok) (hM : c.omegaM < 1) (hh : h.omegaM = 1 ∧ h.omegaV = 0) (hu : h.useTEnd = true)
    {s : CosmoScalars} {i : ℕ} {a : ℝ} (ha : c.entries[i + 1]? = some a) (hs : s.time = c.timeOf a) (hat : a < h.tEnd)
    {dts : List ℝ} (hl : c.limited = false) (hbig : friedmann 1 0 h.tEnd - friedmann 1 0 a ≤ big)
    (hk : ∀ x ∈ dts, friedmann 1 0 h.tEnd - friedmann 1 0 a ≤ x) :
    ∃ x, cosmoStep c h big dts s = some x ∧ x.dt = dtTo h.omegaM h.omegaV a (h.tEnd / a) ∧ c.timeOf h.tEnd < x.time := by
  have u := k.matter
  have u1 : Universe 1 0 := ⟨one_pos, le_refl _, by norm_num⟩
  have pa : 0 < a := lt_of_lt_of_le k.start (entries_pos k (List.mem_of_getElem? ha)).1
  have pt : 0 < h.tEnd := lt_trans pa hat
  have ea : c.expansion s.time = some a := by
    rw [hs]
    refine C55_exact_partial (i := i) (times_increasing k) (C55_table k.order k.size).1 (tables_length c) ?_ ha
    unfold lookupT
    rw [List.getElem?_map]
    change Option.map _ c.entries[i + 1]? = _
    rw [ha]
    rfl
  obtain ⟨x, hx, xa⟩ := cosmoStep_defined (h := h) (big := big) (dts := dts) ea (fun hl' => by rw [hl] at hl'; cases hl')
  obtain ⟨-, -, e3, -, -, e6, e7⟩ := cosmoStep_facts hx
  have lo := e7 _ hbig hk (fun hl' => by rw [hl] at hl'; cases hl') (fun _ => by
    rw [xa, hh.1, hh.2, dtTo_div u1 pa pt])
  have up := e6 hu
  rw [xa, hh.1, hh.2, dtTo_div u1 pa pt] at up
  refine ⟨x, hx, by rw [hh.1, hh.2, dtTo_div u1 pa pt]; linarith, ?_⟩
  have := friedmann_matter u hM pa hat
  rw [e3, hs]
  unfold CosmoConfig.timeOf
  linarith

end Verif.TimeLoop
