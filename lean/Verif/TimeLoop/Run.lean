import Mathlib.Algebra.Order.Archimedean.Basic
import Mathlib.Algebra.Order.Field.Basic
import Mathlib.Algebra.Order.Ring.Rat
import Mathlib.Tactic.Linarith
import Mathlib.Tactic.NormNum

/-!
# C41: end of the time loop

Model of `core/src/DyabloTimeLoop.h`: `run` L510-525, the parts of `step` that change `iter`, `time` and
`dt` (L605-622, L746), `stop_criterion` L137-147, `correct_dt_end` L184-203 and `next_iter` L205-210, for
`t_end_var = "time"` (the default). Times are exact.
-/

namespace Verif.TimeLoop

/-! ### Model -/

/-- L83-87; `t_end_epsilon = 0` for `t_end_var = "time"`. -/
structure Handler (T : Type) where
  iterEnd : ℤ
  tEnd : T
  useTEnd : Bool

/-- The entries `iter`, `time` and `dt` of the scalar data. -/
structure Scalars (T : Type) where
  iter : ℤ
  time : T
  dt : T

variable {T : Type} [Field T] [LinearOrder T]

/-- L138-147. -/
def Handler.stop (h : Handler T) (s : Scalars T) : Bool :=
  (decide (0 < h.iterEnd) && decide (h.iterEnd ≤ s.iter)) || (h.useTEnd && decide (h.tEnd ≤ s.time))

/-- L185-203. -/
def Handler.correctDt (h : Handler T) (s : Scalars T) : Scalars T :=
  if h.useTEnd = true ∧ h.tEnd < s.time + s.dt then { s with dt := h.tEnd - s.time } else s

/-- L206-210. -/
def nextIter (s : Scalars T) : Scalars T := { s with iter := s.iter + 1, time := s.time + s.dt }

/-- L609-616: minimum over the kernels, `big` is the largest number. -/
def minDt (big : T) (dts : List T) : T := dts.foldl min big

/-- L563-746, scalar data only: `dts` are the results of the time step kernels in this step. -/
def step (h : Handler T) (big : T) (dts : List T) (s : Scalars T) : Scalars T :=
  nextIter (h.correctDt { s with dt := minDt big dts })

/-- L518-525 for at most `fuel` steps: `kernels n` are the results of the kernels in step `n`,
`interrupted n` says whether a signal was received by some rank before the test after step `n`. Result:
scalar data after each step. `none`: not finished. -/
def run (h : Handler T) (big : T) (kernels : ℕ → List T) (interrupted : ℕ → Bool) :
    ℕ → ℕ → Scalars T → Option (List (Scalars T))
  | 0, _, _ => none
  | fuel + 1, n, s =>
    let s' := step h big (kernels n) s
    if h.stop s' || interrupted n then some [s']
    else (run h big kernels interrupted fuel (n + 1) s').map (s' :: ·)

/-! ### Lemmas -/

omit [Field T] in
theorem minDt_le {big : T} {dts : List T} {x : T} (hx : x ∈ dts) : minDt big dts ≤ x := by
  have key : ∀ (l : List T) (a : T), l.foldl min a ≤ a ∧ ∀ x ∈ l, l.foldl min a ≤ x := by
    intro l
    induction l with
    | nil => intro a; simp
    | cons b l ih =>
      intro a
      simp only [List.foldl_cons, List.mem_cons]
      obtain ⟨h1, h2⟩ := ih (min a b)
      refine ⟨h1.trans (min_le_left _ _), ?_⟩
      rintro x (rfl | hx)
      · exact h1.trans (min_le_right _ _)
      · exact h2 x hx
  exact (key dts big).2 x hx

omit [Field T] in
theorem le_minDt {big x : T} {dts : List T} (hb : x ≤ big) (h : ∀ y ∈ dts, x ≤ y) :
    x ≤ minDt big dts := by
  unfold minDt
  induction dts generalizing big with
  | nil => exact hb
  | cons b l ih =>
    simp only [List.foldl_cons]
    exact ih (le_min hb (h b (by simp))) fun y hy => h y (by simp [hy])

variable [IsStrictOrderedRing T]

/-- One step with a positive time step before the end. -/
theorem step_spec (h : Handler T) {big δ : T} {dts : List T} {s : Scalars T} (hδ : 0 < δ)
    (hdt : δ ≤ minDt big dts) (ht : h.useTEnd = true → s.time < h.tEnd) :
    (step h big dts s).iter = s.iter + 1 ∧
      (step h big dts s).time = s.time + (step h big dts s).dt ∧
      0 < (step h big dts s).dt ∧ (step h big dts s).dt ≤ minDt big dts ∧
      (h.useTEnd = true → (step h big dts s).time ≤ h.tEnd) ∧
      ((step h big dts s).time = h.tEnd ∨ s.time + δ ≤ (step h big dts s).time) := by
  unfold step nextIter Handler.correctDt
  split
  · rename_i hc
    obtain ⟨hc1, hc2⟩ := hc
    have hc2' : h.tEnd < s.time + minDt big dts := hc2
    have := ht hc1
    refine ⟨rfl, rfl, ?_, ?_, fun _ => ?_, Or.inl ?_⟩
    · show 0 < h.tEnd - s.time; linarith
    · show h.tEnd - s.time ≤ minDt big dts; linarith
    · show s.time + (h.tEnd - s.time) ≤ h.tEnd; linarith
    · show s.time + (h.tEnd - s.time) = h.tEnd; ring
  · rename_i hc
    refine ⟨rfl, rfl, lt_of_lt_of_le hδ hdt, le_refl _, fun hu => ?_, Or.inr ?_⟩
    · show s.time + minDt big dts ≤ h.tEnd
      exact not_lt.1 fun hlt => hc ⟨hu, hlt⟩
    · show s.time + δ ≤ s.time + minDt big dts
      linarith

omit [Field T] [IsStrictOrderedRing T] in
/-- The hypotheses hold again before the next step. -/
theorem time_lt_of_not_stop {h : Handler T} {s : Scalars T} {b : Bool}
    (hs : ¬ (h.stop s || b) = true) : (h.useTEnd = true → s.time < h.tEnd) ∧
      (0 < h.iterEnd → s.iter < h.iterEnd) := by
  simp only [Handler.stop, Bool.or_eq_true, Bool.and_eq_true, decide_eq_true_eq, not_or, not_and,
    not_le] at hs
  exact ⟨hs.1.2, hs.1.1⟩

/-! ### Properties -/

/-- **C41** No step goes past the end time, and every step goes forward by at most what the time step
kernels allow. -/
theorem C41_no_overshoot (h : Handler T) {big : T} (kernels : ℕ → List T) (interrupted : ℕ → Bool)
    (hb : 0 < big) (hk : ∀ n, ∀ x ∈ kernels n, 0 < x) {fuel n : ℕ} {s : Scalars T}
    (ht : h.useTEnd = true → s.time < h.tEnd) {l : List (Scalars T)}
    (hr : run h big kernels interrupted fuel n s = some l) :
    (∀ x ∈ l, h.useTEnd = true → x.time ≤ h.tEnd) ∧
      (s :: l).Pairwise (fun a b => a.time < b.time) ∧
      ∀ k (hk : k < l.length), 0 < l[k].dt ∧ ∀ x ∈ kernels (n + k), l[k].dt ≤ x := by
  induction fuel generalizing n s l with
  | zero => simp [run] at hr
  | succ fuel ih =>
    obtain ⟨δ, hδ, hdt⟩ : ∃ δ, 0 < δ ∧ δ ≤ minDt big (kernels n) := by
      have key : ∀ (l : List T) (a : T), 0 < a → (∀ x ∈ l, 0 < x) → 0 < l.foldl min a := by
        intro l
        induction l with
        | nil => intro a ha _; exact ha
        | cons b l ih =>
          intro a ha hx
          exact ih _ (lt_min ha (hx b (by simp))) fun x hx' => hx x (by simp [hx'])
      exact ⟨_, key _ _ hb (hk n), le_refl _⟩
    obtain ⟨h1, h2, h3, h4, h5, h6⟩ := step_spec h (s := s) hδ hdt ht
    rw [run] at hr
    by_cases hc : (h.stop (step h big (kernels n) s) || interrupted n) = true
    · rw [if_pos hc, Option.some.injEq] at hr
      subst hr
      refine ⟨by simpa using h5, by simp; linarith, fun k hk' => ?_⟩
      have : k = 0 := by simpa using hk'
      subst this
      exact ⟨h3, fun x hx => h4.trans (minDt_le hx)⟩
    · rw [if_neg hc] at hr
      obtain ⟨l', hl', rfl⟩ := Option.map_eq_some_iff.1 hr
      obtain ⟨i1, i2, i3⟩ := ih (time_lt_of_not_stop hc).1 hl'
      refine ⟨?_, ?_, ?_⟩
      · intro x hx
        rcases List.mem_cons.1 hx with rfl | hx
        · exact h5
        · exact i1 x hx
      · refine List.pairwise_cons.2 ⟨?_, i2⟩
        intro x hx
        have hlt : s.time < (step h big (kernels n) s).time := by linarith
        rcases List.mem_cons.1 hx with rfl | hx
        · exact hlt
        · exact hlt.trans ((List.pairwise_cons.1 i2).1 x hx)
      · intro k hk'
        cases k with
        | zero => exact ⟨h3, fun x hx => h4.trans (minDt_le hx)⟩
        | succ k =>
          have := i3 k (by simpa using hk')
          simpa [Nat.add_assoc, Nat.add_comm 1 k] using this

/-- **C41** When the loop ends, the time is the end time, or the maximal number of iterations is
reached, or it was interrupted. In all steps before neither was the case. -/
theorem C41_final (h : Handler T) {big : T} (kernels : ℕ → List T) (interrupted : ℕ → Bool)
    (hb : 0 < big) (hk : ∀ n, ∀ x ∈ kernels n, 0 < x) {fuel n : ℕ} {s : Scalars T}
    (ht : h.useTEnd = true → s.time < h.tEnd) (hi : 0 < h.iterEnd → s.iter < h.iterEnd)
    {l : List (Scalars T)} (hr : run h big kernels interrupted fuel n s = some l) :
    ∃ e, l.getLast? = some e ∧ e.iter = s.iter + l.length ∧
      ((h.useTEnd = true ∧ e.time = h.tEnd) ∨ (0 < h.iterEnd ∧ e.iter = h.iterEnd) ∨
        interrupted (n + l.length - 1) = true) ∧
      ∀ x ∈ l.dropLast, (h.useTEnd = true → x.time < h.tEnd) ∧ (0 < h.iterEnd → x.iter < h.iterEnd) := by
  induction fuel generalizing n s l with
  | zero => simp [run] at hr
  | succ fuel ih =>
    have hno := (C41_no_overshoot h kernels interrupted hb hk ht hr).1
    rw [run] at hr
    by_cases hc : (h.stop (step h big (kernels n) s) || interrupted n) = true
    · rw [if_pos hc, Option.some.injEq] at hr
      subst hr
      have h2 : (step h big (kernels n) s).iter = s.iter + 1 := by
        unfold step nextIter Handler.correctDt; split <;> rfl
      refine ⟨step h big (kernels n) s, rfl, by simp [h2], ?_, by simp⟩
      simp only [Handler.stop, Bool.or_eq_true, Bool.and_eq_true, decide_eq_true_eq] at hc
      rcases hc with (⟨c1, c2⟩ | ⟨c1, c2⟩) | c
      · have h1 := hi c1
        exact Or.inr (Or.inl ⟨c1, by omega⟩)
      · exact Or.inl ⟨c1, le_antisymm (hno _ (by simp) c1) c2⟩
      · exact Or.inr (Or.inr (by simpa using c))
    · rw [if_neg hc] at hr
      obtain ⟨l', hl', rfl⟩ := Option.map_eq_some_iff.1 hr
      have hns := time_lt_of_not_stop hc
      obtain ⟨e, e1, e2, e3, e4⟩ := ih hns.1 hns.2 hl'
      have hne : l' ≠ [] := by rintro rfl; simp at e1
      have h2 : (step h big (kernels n) s).iter = s.iter + 1 := by
        unfold step nextIter Handler.correctDt; split <;> rfl
      refine ⟨e, ?_, ?_, ?_, ?_⟩
      · rw [List.getLast?_cons_of_ne_nil hne, e1]
      · rw [e2, h2, List.length_cons]; push_cast; ring
      · rcases e3 with h | h | h
        · exact Or.inl h
        · exact Or.inr (Or.inl h)
        · refine Or.inr (Or.inr ?_)
          have hl : 0 < l'.length := List.length_pos_iff.2 hne
          rw [List.length_cons, show n + (l'.length + 1) - 1 = n + 1 + l'.length - 1 by omega]
          exact h
      · rw [List.dropLast_cons_of_ne_nil hne]
        intro x hx
        rcases List.mem_cons.1 hx with rfl | hx
        · exact hns
        · exact e4 x hx

omit [IsStrictOrderedRing T] in
/-- **C41** The loop ends if there is an iteration limit. -/
theorem C41_stops_iterations (h : Handler T) {big : T} (kernels : ℕ → List T)
    (interrupted : ℕ → Bool) (hi : 0 < h.iterEnd) (n : ℕ) (s : Scalars T) :
    ∃ l, run h big kernels interrupted ((h.iterEnd - s.iter).toNat + 1) n s = some l := by
  generalize hf : (h.iterEnd - s.iter).toNat = f
  induction f generalizing n s with
  | zero =>
    refine ⟨[step h big (kernels n) s], ?_⟩
    rw [run, if_pos]
    have h2 : (step h big (kernels n) s).iter = s.iter + 1 := by
      unfold step nextIter Handler.correctDt; split <;> rfl
    simp only [Handler.stop, Bool.or_eq_true, Bool.and_eq_true, decide_eq_true_eq]
    exact Or.inl (Or.inl ⟨hi, by omega⟩)
  | succ f ih =>
    rw [run]
    split
    · exact ⟨_, rfl⟩
    · have h2 : (step h big (kernels n) s).iter = s.iter + 1 := by
        unfold step nextIter Handler.correctDt; split <;> rfl
      obtain ⟨l, hl⟩ := ih (n + 1) (step h big (kernels n) s) (by omega)
      exact ⟨_, by rw [hl]; rfl⟩

/-- **C41** The loop ends if there is an end time and the time steps are bounded below. -/
theorem C41_stops_time [Archimedean T] (h : Handler T) {big δ : T} (kernels : ℕ → List T)
    (interrupted : ℕ → Bool) (hδ : 0 < δ) (hb : δ ≤ big) (hk : ∀ n, ∀ x ∈ kernels n, δ ≤ x)
    (hu : h.useTEnd = true) (n : ℕ) (s : Scalars T) (ht : s.time < h.tEnd) :
    ∃ fuel l, run h big kernels interrupted fuel n s = some l := by
  obtain ⟨f, hf⟩ := Archimedean.arch (h.tEnd - s.time) hδ
  refine ⟨f + 1, ?_⟩
  rw [nsmul_eq_mul] at hf
  induction f generalizing n s with
  | zero => simp at hf; linarith
  | succ f ih =>
    rw [run]
    split
    · exact ⟨_, rfl⟩
    · rename_i hc
      obtain ⟨-, -, -, -, h5, h6⟩ := step_spec h (s := s) hδ (le_minDt hb (hk n)) fun _ => ht
      have hlt := (time_lt_of_not_stop hc).1 hu
      have h6' := h6.resolve_left (ne_of_lt hlt)
      obtain ⟨l, hl⟩ := ih (n + 1) (step h big (kernels n) s) hlt (by push_cast at hf; linarith)
      exact ⟨_, by rw [hl]; rfl⟩

/-- **C41**, disagreement: the loop makes a step before its first test. Started after the end time (for
instance a restart with `tStart > tEnd`), this step has a negative time step. -/
theorem C41_start_after_end_fails (h : Handler T) (hu : h.useTEnd = true) {big : T} (kernels : ℕ → List T)
    (interrupted : ℕ → Bool) (hb : 0 < big) (hk : ∀ n, ∀ x ∈ kernels n, 0 < x) (fuel n : ℕ)
    (s : Scalars T) (ht : h.tEnd < s.time) :
    ∃ e, run h big kernels interrupted (fuel + 1) n s = some [e] ∧ e.dt < 0 ∧ e.time = h.tEnd := by
  have key : ∀ (l : List T) (a : T), 0 < a → (∀ x ∈ l, 0 < x) → 0 < l.foldl min a := by
    intro l
    induction l with
    | nil => intro a ha _; exact ha
    | cons b l ih =>
      intro a ha hx
      exact ih _ (lt_min ha (hx b (by simp))) fun x hx' => hx x (by simp [hx'])
  have hd : 0 < minDt big (kernels n) := key _ _ hb (hk n)
  have hs : step h big (kernels n) s = ⟨s.iter + 1, h.tEnd, h.tEnd - s.time⟩ := by
    unfold step Handler.correctDt
    rw [if_pos ⟨hu, by show h.tEnd < s.time + minDt big (kernels n); linarith⟩]
    simp [nextIter]
  refine ⟨step h big (kernels n) s, ?_, ?_, ?_⟩
  · rw [run, if_pos]
    rw [hs]
    simp [Handler.stop, hu]
  · rw [hs]; show h.tEnd - s.time < 0; linarith
  · rw [hs]

/-- Three steps of 0.4 and the rest to the end time 1. -/
example : (run (⟨10, 1, true⟩ : Handler ℚ) 100 (fun _ => [2 / 5, 1]) (fun _ => false) 10 0
    ⟨0, 0, 0⟩).map (List.map fun s => (s.iter, s.time, s.dt)) =
    some [(1, 2 / 5, 2 / 5), (2, 4 / 5, 2 / 5), (3, 1, 1 / 5)] := by decide +kernel

example : ∃ fuel l, run (⟨-1, 1, true⟩ : Handler ℚ) 100 (fun _ => [2 / 5, 1]) (fun _ => false) fuel 0
    ⟨0, 0, 0⟩ = some l :=
  C41_stops_time _ (δ := 1 / 5) _ _ (by norm_num) (by norm_num)
    (fun _ x hx => by rcases List.mem_pair.1 hx with rfl | rfl <;> norm_num) rfl 0 _ (by norm_num)

end Verif.TimeLoop
