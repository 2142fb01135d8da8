import Mathlib.Algebra.Order.Floor.Ring
import Mathlib.Algebra.Order.Group.Int
import Mathlib.Algebra.Order.Group.Basic
import Mathlib.Algebra.Group.Action.Defs
import Mathlib.Data.Rat.Floor
import Mathlib.Order.Monotone.Basic
import Mathlib.Tactic.Linarith
import Mathlib.Tactic.NormNum
import Mathlib.Tactic.FieldSimp
import Mathlib.Tactic.Ring

/-!
# C40: periodic triggers

Model of `Interval_trigger` and of the triggers of `IterationHandler` in `core/src/DyabloTimeLoop.h`
L28-67, L81, L149-182. Times are exact; iteration numbers do not overflow.
-/

namespace Verif.TimeLoop

/-! ### Model -/

/-- L36-39. -/
structure Trigger (T : Type) where
  enabled : Bool
  interval : T
  last : T
deriving DecidableEq

/-- `std::floor(val/interval) * interval` for `T = real_t`, L50 and L61. -/
def realFloor {T : Type} [Field T] [LinearOrder T] [FloorRing T] (val interval : T) : T :=
  (⌊val / interval⌋ : T) * interval

/-- The same for `T = int`: the division is that of integers and rounds towards zero. -/
def intFloor (val interval : ℤ) : ℤ := val.tdiv interval * interval

/-- L46-51 for `T = real_t`. -/
def newRealTrigger {T : Type} [Field T] [LinearOrder T] [FloorRing T] (interval val : T) : Trigger T :=
  ⟨decide (0 < interval), interval, realFloor val interval⟩

/-- L46-51 for `T = int`. `none`: division by zero, which is undefined. -/
def newIntTrigger (interval val : ℤ) : Option (Trigger ℤ) :=
  if interval = 0 then none else some ⟨decide (0 < interval), interval, intFloor val interval⟩

/-- L53-66; `fl` is `realFloor` or `intFloor`. -/
def Trigger.trigger {T : Type} [Sub T] [LinearOrder T] (fl : T → T → T) (t : Trigger T) (val : T) :
    Bool × Trigger T :=
  if t.enabled = false then (false, t)
  else if t.interval ≤ val - t.last then (true, { t with last := fl val t.interval })
  else (false, t)

/-- The trigger after calls with `v 1`, …, `v n`. -/
def Trigger.after {T : Type} [Sub T] [LinearOrder T] (fl : T → T → T) (t : Trigger T) (v : ℕ → T) :
    ℕ → Trigger T
  | 0 => t
  | n + 1 => ((t.after fl v n).trigger fl (v (n + 1))).2

/-- Result of the call with `v (n+1)`, after those with `v 1`, …, `v n`. -/
def Trigger.fires {T : Type} [Sub T] [LinearOrder T] (fl : T → T → T) (t : Trigger T) (v : ℕ → T)
    (n : ℕ) : Bool :=
  ((t.after fl v n).trigger fl (v (n + 1))).1

/-- L149-160: `output_trigger` for the calls with iteration `it (n+1)` and time `tm (n+1)`. -/
def outputFires {T : Type} [Field T] [LinearOrder T] [FloorRing T] (f : Trigger ℤ) (s : Trigger T)
    (it : ℕ → ℤ) (tm : ℕ → T) (n : ℕ) : Bool :=
  (n == 0) || f.fires intFloor it n || s.fires realFloor tm n

/-- L163-170: `checkpoint_trigger`. -/
def checkpointFires {T : Type} [Field T] [LinearOrder T] [FloorRing T] (f : Trigger ℤ)
    (s : Trigger T) (it : ℕ → ℤ) (tm : ℕ → T) (n : ℕ) : Bool :=
  f.fires intFloor it n || s.fires realFloor tm n

/-! ### Specification -/

/-- A multiple of the interval is in `(a, b]`. -/
def Crossed {T : Type} [AddCommGroup T] [LinearOrder T] (interval a b : T) : Prop :=
  ∃ m : ℤ, a < m • interval ∧ m • interval ≤ b

/-! ### Lemmas -/

section

variable {T : Type} [AddCommGroup T] [LinearOrder T] [IsOrderedAddMonoid T]

/-- What is needed of the rounding for the value `v`. -/
def RoundsDown (fl : T → T → T) (i v : T) : Prop :=
  ∃ m : ℤ, fl v i = m • i ∧ m • i ≤ v ∧ v < (m + 1) • i

theorem multiple_lt {i : T} (hi : 0 < i) {m n : ℤ} (h : m • i < n • i) : m < n := by
  by_contra hn
  exact absurd h (not_lt.2 (zsmul_le_zsmul_left hi.le (by omega)))

theorem after_last {fl : T → T → T} {i : T} (hi : 0 < i) {v : ℕ → T} (hv : Monotone v)
    (hfl : ∀ n, RoundsDown fl i (v n)) (n : ℕ) :
    Trigger.after fl ⟨true, i, fl (v 0) i⟩ v n = ⟨true, i, fl (v n) i⟩ := by
  induction n with
  | zero => rfl
  | succ n ih =>
    rw [Trigger.after, ih, Trigger.trigger]
    simp only [Bool.true_eq_false, if_false]
    split
    · rfl
    · rename_i h
      obtain ⟨m, e, h1, h2⟩ := hfl n
      obtain ⟨k, e', h1', h2'⟩ := hfl (n + 1)
      have hlt : v (n + 1) < (m + 1) • i := by
        rw [e, not_le, sub_lt_iff_lt_add] at h
        rwa [add_zsmul, one_zsmul, add_comm (m • i)]
      have hkm : k < m + 1 := multiple_lt hi (lt_of_le_of_lt h1' hlt)
      have hmk : m < k + 1 := multiple_lt hi (lt_of_le_of_lt (h1.trans (hv (Nat.le_succ n))) h2')
      have : k = m := by omega
      rw [e, e', this]

theorem fires_iff {fl : T → T → T} {i : T} (hi : 0 < i) {v : ℕ → T} (hv : Monotone v)
    (hfl : ∀ n, RoundsDown fl i (v n)) (n : ℕ) :
    Trigger.fires fl ⟨true, i, fl (v 0) i⟩ v n = true ↔ Crossed i (v n) (v (n + 1)) := by
  rw [Trigger.fires, after_last hi hv hfl, Trigger.trigger]
  simp only [Bool.true_eq_false, if_false]
  obtain ⟨m, e, h1, h2⟩ := hfl n
  have hle : i ≤ v (n + 1) - m • i ↔ (m + 1) • i ≤ v (n + 1) := by
    rw [le_sub_iff_add_le, add_zsmul, one_zsmul, add_comm]
  rw [e]
  split
  · rename_i h
    exact ⟨fun _ => ⟨m + 1, h2, hle.1 h⟩, fun _ => rfl⟩
  · rename_i h
    refine ⟨fun h' => absurd h' (by simp), ?_⟩
    rintro ⟨k, h3, h4⟩
    have : m < k := multiple_lt hi (lt_of_le_of_lt h1 h3)
    exact absurd (hle.2 (le_trans (zsmul_le_zsmul_left hi.le (by omega)) h4)) h

omit [AddCommGroup T] [IsOrderedAddMonoid T] in
/-- A multiple in `(v 0, v n]` is crossed by exactly one step. -/
theorem crossed_once {v : ℕ → T} (hv : Monotone v) (x : T) {n : ℕ} (h0 : v 0 < x) (hn : x ≤ v n) :
    ∃ k < n, (v k < x ∧ x ≤ v (k + 1)) ∧ ∀ j, v j < x → x ≤ v (j + 1) → j = k := by
  have hex : ∃ n, x ≤ v n := ⟨n, hn⟩
  classical
  have hf := Nat.find_spec hex
  have hmin := fun {m} => Nat.find_min hex (m := m)
  generalize hg : Nat.find hex = f at *
  have hle : f ≤ n := by rw [← hg]; exact Nat.find_min' hex hn
  obtain ⟨k, rfl⟩ : ∃ k, f = k + 1 := by
    refine Nat.exists_eq_succ_of_ne_zero ?_
    rintro rfl
    exact absurd h0 (not_lt.2 hf)
  refine ⟨k, hle, ⟨not_le.1 (hmin (Nat.lt_succ_self k)), hf⟩, fun j hj hj' => ?_⟩
  by_contra hne
  rcases Nat.lt_or_gt_of_ne hne with h | h
  · exact hmin (m := j + 1) (by omega) hj'
  · exact absurd (lt_of_lt_of_le hj (hf.trans (hv h))) (lt_irrefl _)

end

theorem intFloor_rounds {i v : ℤ} (hi : 0 < i) (hv : 0 ≤ v) : RoundsDown intFloor i v := by
  refine ⟨v / i, ?_, ?_, ?_⟩
  · rw [intFloor, Int.tdiv_eq_ediv_of_nonneg hv, smul_eq_mul]
  · rw [smul_eq_mul]; exact Int.ediv_mul_le v hi.ne'
  · rw [smul_eq_mul]; exact Int.lt_ediv_add_one_mul_self v hi

section

variable {T : Type} [Field T] [LinearOrder T] [IsStrictOrderedRing T] [FloorRing T]

theorem realFloor_rounds {i : T} (hi : 0 < i) (v : T) : RoundsDown realFloor i v := by
  refine ⟨⌊v / i⌋, ?_, ?_, ?_⟩
  · rw [realFloor, zsmul_eq_mul]
  · rw [zsmul_eq_mul, ← le_div_iff₀ hi]; exact Int.floor_le _
  · rw [zsmul_eq_mul, ← div_lt_iff₀ hi]; push_cast; exact Int.lt_floor_add_one _

/-! ### Properties -/

/-- **C40** A trigger on the time fires in a step exactly if a multiple of the interval is reached in
this step: it is after the previous time and not after the new one. -/
theorem C40_time_trigger {i : T} (hi : 0 < i) {v : ℕ → T} (hv : Monotone v) (n : ℕ) :
    (newRealTrigger i (v 0)).fires realFloor v n = true ↔ Crossed i (v n) (v (n + 1)) := by
  have : newRealTrigger i (v 0) = ⟨true, i, realFloor (v 0) i⟩ := by
    simp [newRealTrigger, hi]
  rw [this]
  exact fires_iff hi hv (fun n => realFloor_rounds hi (v n)) n

/-- **C40** The same for a trigger on the iteration number. -/
theorem C40_iteration_trigger {i : ℤ} (hi : 0 < i) {v : ℕ → ℤ} (hv : Monotone v) (h0 : 0 ≤ v 0) :
    ∃ t, newIntTrigger i (v 0) = some t ∧
      ∀ n, t.fires intFloor v n = true ↔ Crossed i (v n) (v (n + 1)) := by
  refine ⟨⟨true, i, intFloor (v 0) i⟩, ?_, fun n => ?_⟩
  · simp [newIntTrigger, hi, hi.ne']
  · exact fires_iff hi hv (fun n => intFloor_rounds hi (h0.trans (hv (Nat.zero_le n)))) n

/-- **C40** Iterations are counted one by one: such a trigger fires exactly at the multiples. -/
theorem C40_every_nth_iteration {i : ℤ} (hi : 0 < i) (start : ℤ) (h0 : 0 ≤ start) :
    ∃ t, newIntTrigger i start = some t ∧
      ∀ n : ℕ, t.fires intFloor (fun k => start + k) n = true ↔ i ∣ start + (n + 1 : ℕ) := by
  have hm : Monotone fun k : ℕ => start + (k : ℤ) := fun a b h => by
    show start + (a : ℤ) ≤ start + (b : ℤ); omega
  obtain ⟨t, h1, h2⟩ := C40_iteration_trigger hi hm (by simpa using h0)
  refine ⟨t, by simpa using h1, fun n => (h2 n).trans ?_⟩
  constructor
  · rintro ⟨m, h3, h4⟩
    simp only [smul_eq_mul] at h3 h4
    exact ⟨m, by rw [mul_comm]; push_cast at h4 ⊢; omega⟩
  · rintro ⟨m, h⟩
    have h' : m * i = start + (n + 1 : ℕ) := by rw [mul_comm]; exact h.symm
    exact ⟨m, by rw [smul_eq_mul, h']; push_cast; omega, by rw [smul_eq_mul, h']⟩

/-- **C40** Each multiple that is reached is reported once: the trigger fires in exactly one of the
steps that could report it. -/
theorem C40_once_per_multiple {i : T} (hi : 0 < i) {v : ℕ → T} (hv : Monotone v) (m : ℤ) {n : ℕ}
    (h0 : v 0 < m * i) (hn : m * i ≤ v n) :
    ∃ k < n, (newRealTrigger i (v 0)).fires realFloor v k = true ∧ (v k < m * i ∧ m * i ≤ v (k + 1)) ∧
      ∀ j, v j < m * i → m * i ≤ v (j + 1) → j = k := by
  obtain ⟨k, h1, h2, h3⟩ := crossed_once hv (m * i) h0 hn
  refine ⟨k, h1, (C40_time_trigger hi hv k).2 ⟨m, ?_, ?_⟩, h2, h3⟩ <;> rw [zsmul_eq_mul]
  exacts [h2.1, h2.2]

omit [IsStrictOrderedRing T] in
/-- **C40** A disabled trigger never fires. -/
theorem C40_disabled (i x : T) (hi : i ≤ 0) (v : ℕ → T) (n : ℕ) :
    (newRealTrigger i x).fires realFloor v n = false := by
  have key : ∀ n, (newRealTrigger i x).after realFloor v n = newRealTrigger i x := by
    intro n
    induction n with
    | zero => rfl
    | succ n ih => rw [Trigger.after, ih]; simp [Trigger.trigger, newRealTrigger, not_lt.2 hi]
  rw [Trigger.fires, key]
  simp [Trigger.trigger, newRealTrigger, not_lt.2 hi]

omit [IsStrictOrderedRing T] in
/-- **C40** A negative interval disables a trigger on the iteration number. -/
theorem C40_disabled_int (i x : ℤ) (hi : i < 0) (v : ℕ → ℤ) :
    ∃ t, newIntTrigger i x = some t ∧ ∀ n, t.fires intFloor v n = false := by
  refine ⟨⟨false, i, intFloor x i⟩, by simp [newIntTrigger, hi.ne, hi.le], fun n => ?_⟩
  have key : ∀ n, Trigger.after intFloor ⟨false, i, intFloor x i⟩ v n = ⟨false, i, intFloor x i⟩ := by
    intro n
    induction n with
    | zero => rfl
    | succ n ih => rw [Trigger.after, ih]; simp [Trigger.trigger]
  rw [Trigger.fires, key]
  simp [Trigger.trigger]

/-- **C40** Snapshots: one at the first step, then whenever a multiple of either interval is reached. -/
theorem C40_output {fi : ℤ} {si : T} (hf : 0 < fi) (hs : 0 < si) {it : ℕ → ℤ} {tm : ℕ → T}
    (hit : Monotone it) (htm : Monotone tm) (h0 : 0 ≤ it 0) :
    ∃ t, newIntTrigger fi (it 0) = some t ∧
      (∀ n, outputFires t (newRealTrigger si (tm 0)) it tm n = true ↔
        n = 0 ∨ Crossed fi (it n) (it (n + 1)) ∨ Crossed si (tm n) (tm (n + 1))) ∧
      ∀ n, checkpointFires t (newRealTrigger si (tm 0)) it tm n = true ↔
        Crossed fi (it n) (it (n + 1)) ∨ Crossed si (tm n) (tm (n + 1)) := by
  obtain ⟨t, h1, h2⟩ := C40_iteration_trigger hf hit h0
  refine ⟨t, h1, fun n => ?_, fun n => ?_⟩
  · simp only [outputFires, Bool.or_eq_true, beq_iff_eq, h2, C40_time_trigger hs htm, or_assoc]
  · simp only [checkpointFires, Bool.or_eq_true, h2, C40_time_trigger hs htm]

end

/-- **C40**, disagreement: the interval 0 for the iteration number does not disable the trigger. The
constructor divides by zero first. -/
theorem C40_zero_interval_fails (x : ℤ) : newIntTrigger 0 x = none := rfl

/-- **C40**, disagreement: negative iteration numbers (`iter_start < 0`) are rounded towards zero. With
interval 3 the multiple -3 is reached at the second step without firing. -/
theorem C40_negative_iteration_fails :
    ∃ t, newIntTrigger 3 (-5) = some t ∧
      t.fires intFloor (fun k => -5 + k) 1 = false ∧ Crossed (3 : ℤ) (-5 + 1) (-5 + 2) := by
  exact ⟨⟨true, 3, -3⟩, by decide, by decide, -1, by decide, by decide⟩

/-- Times 0, 0.4, 0.8, … with interval 1: fires in the steps to 1.2 and 2. -/
example : (List.range 6).map ((newRealTrigger (1 : ℚ) 0).fires realFloor fun k => k * (2 / 5)) =
    [false, false, true, false, true, false] := by decide +kernel

/-- The hypotheses of `C40_once_per_multiple` for these times and the multiple 2. -/
example : ∃ k < 6, (newRealTrigger (1 : ℚ) 0).fires realFloor (fun k => k * (2 / 5)) k = true := by
  obtain ⟨k, h1, h2, -⟩ := C40_once_per_multiple (T := ℚ) (i := 1) (by norm_num)
    (v := fun k => k * (2 / 5)) (fun a b h => by
      have : (a : ℚ) ≤ b := by exact_mod_cast h
      show (a : ℚ) * (2 / 5) ≤ b * (2 / 5)
      linarith) 2 (n := 6) (by norm_num) (by norm_num)
  exact ⟨k, h1, by simpa using h2⟩

/-- Every third iteration from iteration 4. -/
example : ∃ t, newIntTrigger 3 4 = some t ∧
    (List.range 5).map (t.fires intFloor fun k => 4 + k) = [false, true, false, false, true] :=
  ⟨⟨true, 3, 3⟩, by decide, by decide⟩

end Verif.TimeLoop
