import Mathlib.Algebra.BigOperators.Group.List.Basic
import Mathlib.Algebra.Order.Ring.Rat
import Mathlib.Data.List.Infix
import Mathlib.Tactic.Linarith
import Mathlib.Tactic.Ring
import Mathlib.Tactic.NormNum

/-!
# C56: timers

Model of `core/src/utils/monitoring/Timers.cpp` L61-264 and `OpenMPTimer.cpp` (CPU times; the GPU timer is the same with another
clock). Times are rational numbers. The profiling regions of Kokkos are left out.
-/

namespace Verif.Timers

/-! ### Model -/

/-- A timer object, by its place in the tree of timers (`timer_map`, L69): the names from the innermost to the outermost one. The
root `timer_total` (L130) is the empty list. Addresses in a `std::map` are stable. -/
abbrev Path := List String

/-- A pointer to a timer. `wild` does not point to a timer. -/
inductive Ptr where
  | null
  | wild
  | timer (p : Path)
  deriving DecidableEq

/-- `assertion`: `DYABLO_ASSERT_HOST_RELEASE` ends the program; `undefined`: a pointer that does not point to a timer is used. -/
inductive Fault where
  | assertion
  | undefined
  deriving DecidableEq

structure State where
  /-- L131 -/
  current : Ptr
  /-- L70 -/
  parent : Path → Ptr
  /-- `start_time` and `total_time` of the `OpenMPTimer` L67. -/
  startTime : Path → ℚ
  total : Path → ℚ
  /-- The timers in the tree below the root. -/
  known : List Path

/-- L85-94 and L252-257, at time `now`. -/
def start (p : Path) (now : ℚ) (s : State) : Except Fault State :=
  if s.parent p ≠ .null then .error .assertion
  else .ok { s with
    current := .timer p
    parent := Function.update s.parent p s.current
    startTime := Function.update s.startTime p now }

/-- L96-105 and L259-264, at time `now`. -/
def stop (p : Path) (now : ℚ) (s : State) : Except Fault State :=
  if s.current ≠ .timer p then .error .assertion
  else .ok { s with
    current := s.parent p
    parent := Function.update s.parent p .null
    total := Function.update s.total p (s.total p + (now - s.startTime p)) }

/-- L74, L136: the names given to the constructors. -/
def nameOf : Path → String
  | [] => "Total"
  | n :: _ => n

/-- L147-161. (A new timer has time 0; its `start_time` is overwritten by the first `start`.) -/
def get (name : String) (s : State) : Except Fault (Path × State) :=
  match s.current with
  | .timer p =>
    if name = nameOf p then .ok (p, s)
    else .ok (name :: p, { s with known := if name :: p ∈ s.known then s.known else (name :: p) :: s.known })
  | _ => .error .undefined

/-- L109-124. -/
def elapsed (s : State) (p : Path) : Except Fault ℚ :=
  if s.parent p ≠ .null then .error .assertion else .ok (s.total p)

/-- L236-249, `print` and `get_timers`: stop at time `now`, read all timers, start again at time `done`. -/
def print (now done : ℚ) (s : State) : Except Fault (List (Path × ℚ) × State) := do
  let s ← stop [] now s
  let times ← ([] :: s.known).mapM fun p => do
    let t ← elapsed s p
    pure (p, t)
  let s ← start [] done s
  pure (times, s)

/-- L135-139: `current_timer` is not initialised; `c0` is what it contains. -/
def init (c0 : Ptr) (now : ℚ) : Except Fault State := start [] now ⟨c0, fun _ => .null, fun _ => 0, fun _ => 0, []⟩

/-- What the program does with timers. -/
inductive Call where
  /-- `timers.get(name).start()` -/
  | start (name : String)
  /-- `timers.get(name).stop()` -/
  | stop (name : String)
  /-- `timers.print()` or `get_timers`, which takes the time `duration`. -/
  | print (duration : ℚ)

/-- One call, at time `now`. -/
def call (c : Call) (now : ℚ) (s : State) : Except Fault State :=
  match c with
  | .start name => do
    let (p, s) ← get name s
    start p now s
  | .stop name => do
    let (p, s) ← get name s
    stop p now s
  | .print duration => do
    let (_, s) ← print now (now + duration) s
    pure s

/-- A sequence of calls with their times. -/
def run : List (Call × ℚ) → State → Except Fault State
  | [], s => .ok s
  | (c, now) :: rest, s => do
    let s ← call c now s
    run rest s

/-! ### Specification -/

/-- Name of the innermost open region. -/
def top : List String → String
  | [] => "Total"
  | n :: _ => n

/-- Regions are opened and closed like a stack, innermost first. A region is not opened directly within itself. Printing is for
the outside of all regions. -/
def specCall : List String → Call → Option (List String)
  | st, .start n => if n = top st then none else some (n :: st)
  | [], .stop _ => none
  | m :: st, .stop n => if n = m then some st else none
  | [], .print _ => some []
  | _ :: _, .print _ => none

def specRun : List String → List (Call × ℚ) → Option (List String)
  | st, [] => some st
  | st, (c, _) :: rest => (specCall st c).bind fun st => specRun st rest

/-- Time at which a call is finished. -/
def finish (c : Call) (now : ℚ) : ℚ :=
  match c with
  | .print duration => now + duration
  | _ => now

/-- Time at the end of a sequence of calls. -/
def endTime : ℚ → List (Call × ℚ) → ℚ
  | t, [] => t
  | _, (c, now) :: rest => endTime (finish c now) rest

/-- Time during which the region `p` is open, not counting the time of printing. -/
def openTime (p : Path) : List String → ℚ → List (Call × ℚ) → ℚ
  | _, _, [] => 0
  | st, t, (c, now) :: rest =>
    (if p <:+ st then now - t else 0) + match specCall st c with
      | none => 0
      | some st => openTime p st (finish c now) rest

/-- Times do not decrease, and printing does not take negative time. -/
def Clock : ℚ → List (Call × ℚ) → Prop
  | _, [] => True
  | t, (c, now) :: rest => t ≤ now ∧ now ≤ finish c now ∧ Clock (finish c now) rest

/-- The name is not that of the root. -/
def Call.Proper : Call → Prop
  | .start n => n ≠ "Total"
  | .stop n => n ≠ "Total"
  | .print _ => True

/-! ### The pointers represent a stack -/

/-- The innermost timer of a stack of timers. -/
def link (c0 : Ptr) : List Path → Ptr
  | [] => c0
  | p :: _ => .timer p

/-- The pointers of `s` represent the stack `st` of running timers, innermost first. -/
structure Rep (c0 : Ptr) (s : State) (st : List Path) : Prop where
  current : s.current = link c0 st
  chain : ∀ p rest, p :: rest <:+ st → s.parent p = link c0 rest
  nodup : st.Nodup
  idle : ∀ p, p ∉ st → s.parent p = .null

/-- The content of `current_timer` before its first assignment is not the address of a timer. -/
def Outside (c0 : Ptr) : Prop := ∀ p, c0 ≠ .timer p

theorem suffix_of_mem {st : List Path} {p : Path} (h : p ∈ st) : ∃ rest, p :: rest <:+ st := by
  obtain ⟨l, r, rfl⟩ := List.append_of_mem h
  exact ⟨r, ⟨l, rfl⟩⟩

/-- C56 (start): a timer that is not running is started and becomes the innermost one; a running timer is rejected. Missing: the
outermost timer, if `current_timer` contains a null pointer at first (`C56_total_fails`). -/
theorem C56_start_partial {c0 : Ptr} {s : State} {st : List Path} (h : Rep c0 s st) (p : Path) (now : ℚ)
    (hp : c0 ≠ .null ∨ st.getLast? ≠ some p) :
    (p ∈ st → start p now s = .error .assertion) ∧ (p ∉ st → ∃ s', start p now s = .ok s' ∧ Rep c0 s' (p :: st)) := by
  constructor
  · intro hm
    obtain ⟨rest, hr⟩ := suffix_of_mem hm
    have hc := h.chain p rest hr
    unfold start
    rw [if_pos]
    rw [hc]
    cases rest with
    | nil =>
      rcases hp with hp | hp
      · exact hp
      · exfalso
        apply hp
        obtain ⟨l, rfl⟩ := hr
        simp
    | cons q rest => exact Ptr.noConfusion
  · intro hm
    unfold start
    rw [if_neg (not_not.2 (h.idle p hm))]
    refine ⟨_, rfl, rfl, ?_, List.nodup_cons.2 ⟨hm, h.nodup⟩, ?_⟩
    · intro q rest hq
      rcases List.suffix_cons_iff.1 hq with hq | hq
      · obtain ⟨rfl, rfl⟩ := List.cons.inj hq
        exact (Function.update_self ..).trans h.current
      · have : q ∈ st := hq.subset (by simp)
        have hne : q ≠ p := fun e => hm (e ▸ this)
        exact (Function.update_of_ne hne ..).trans (h.chain q rest hq)
    · intro q hq
      have hne : q ≠ p := fun e => hq (by simp [e])
      exact (Function.update_of_ne hne ..).trans (h.idle q fun e => hq (List.mem_cons_of_mem _ e))

/-- C56 (stop): the innermost running timer is stopped, and the one before it is the innermost again; all others are rejected. -/
theorem C56_stop {c0 : Ptr} (hc0 : Outside c0) {s : State} {st : List Path} (h : Rep c0 s st) (p : Path) (now : ℚ) :
    (st.head? ≠ some p → stop p now s = .error .assertion) ∧
    (∀ rest, st = p :: rest → ∃ s', stop p now s = .ok s' ∧ Rep c0 s' rest) := by
  constructor
  · intro hm
    unfold stop
    rw [if_pos]
    rw [h.current]
    cases st with
    | nil => exact hc0 p
    | cons q st =>
      intro e
      apply hm
      rw [List.head?_cons, Ptr.timer.inj e]
  · rintro rest rfl
    have hn := List.nodup_cons.1 h.nodup
    unfold stop
    have hcur : s.current = .timer p := h.current
    rw [if_neg (not_not.2 hcur)]
    refine ⟨_, rfl, h.chain p rest (List.suffix_refl _), ?_, hn.2, ?_⟩
    · intro q r hq
      have hne : q ≠ p := by
        rintro rfl
        exact hn.1 (hq.subset (by simp))
      exact (Function.update_of_ne hne ..).trans (h.chain q r (hq.trans (List.suffix_cons _ _)))
    · intro q hq
      by_cases hne : q = p
      · rw [hne]
        exact Function.update_self ..
      · refine (Function.update_of_ne hne ..).trans (h.idle q ?_)
        rw [List.mem_cons, not_or]
        exact ⟨hne, hq⟩

/-- The timers that run when the regions `st` are open. -/
theorem tails_cons (n : String) (st : List String) : (n :: st).tails = (n :: st) :: st.tails := by simp

theorem tails_head (st : List String) : ∃ rest, st.tails = st :: rest := by
  cases st with
  | nil => exact ⟨[], rfl⟩
  | cons n st => exact ⟨st.tails, by simp⟩

theorem tails_last (st : List String) : st.tails.getLast? = some [] := by
  induction st with
  | nil => rfl
  | cons n st ih =>
    rw [tails_cons, List.getLast?_cons, ih]
    rfl

theorem nameOf_eq_top (st : List String) : nameOf st = top st := by cases st <;> rfl

/-- `get` within regions. -/
theorem get_spec {c0 : Ptr} {s : State} {st : List String} (h : Rep c0 s st.tails) (name : String) :
    ∃ s', get name s = .ok (if name = top st then st else name :: st, s') ∧ s'.current = s.current ∧ s'.parent = s.parent ∧
      s'.startTime = s.startTime ∧ s'.total = s.total ∧ (∀ p ∈ s.known, p ∈ s'.known) ∧
      (∀ p ∈ s'.known, p ∈ s.known ∨ p = name :: st) ∧ (s.known.Nodup → s'.known.Nodup) := by
  obtain ⟨rest, hr⟩ := tails_head st
  have hc : s.current = .timer st := by rw [h.current, hr]; rfl
  unfold get
  rw [hc]
  dsimp only
  rw [nameOf_eq_top]
  by_cases hn : name = top st
  · rw [if_pos hn, if_pos hn]
    exact ⟨s, rfl, hc, rfl, rfl, rfl, fun _ h => h, fun _ h => Or.inl h, id⟩
  · rw [if_neg hn, if_neg hn]
    refine ⟨_, rfl, hc.symm ▸ rfl, rfl, rfl, rfl, fun p hp => ?_, fun p hp => ?_, fun hnd => ?_⟩
    · dsimp only
      split
      · exact hp
      · exact List.mem_cons_of_mem _ hp
    · dsimp only at hp
      split at hp
      · exact Or.inl hp
      · rcases List.mem_cons.1 hp with hp | hp
        · exact Or.inr hp
        · exact Or.inl hp
    · dsimp only
      split
      · exact hnd
      · next hk => exact List.nodup_cons.2 ⟨hk, hnd⟩

/-! ### Times -/

/-- `m p` is the time of the region `p` up to time `t`, when the regions `st` are open. -/
def Times (st : List String) (t : ℚ) (s : State) (m : Path → ℚ) : Prop :=
  ∀ p, s.total p + (if p <:+ st then t - s.startTime p else 0) = m p

theorem rep_congr {c0 : Ptr} {s s' : State} {st : List Path} (h : Rep c0 s st) (h1 : s'.current = s.current)
    (h2 : s'.parent = s.parent) : Rep c0 s' st :=
  ⟨h1.trans h.current, fun p r hp => (congrFun h2 p).trans (h.chain p r hp), h.nodup,
    fun p hp => (congrFun h2 p).trans (h.idle p hp)⟩

theorem mapM_ok {α β : Type} (f : α → Except Fault β) (g : α → β) : ∀ l : List α, (∀ a ∈ l, f a = .ok (g a)) →
    l.mapM f = .ok (l.map g)
  | [], _ => rfl
  | a :: l, h => by
    rw [List.mapM_cons, h a (by simp), mapM_ok f g l fun b hb => h b (List.mem_cons_of_mem _ hb)]
    rfl

theorem start_times {p : Path} {now : ℚ} {s s' : State} (h : start p now s = .ok s') :
    s'.total = s.total ∧ s'.startTime = Function.update s.startTime p now ∧ s'.known = s.known := by
  unfold start at h
  split at h
  · exact absurd h (by simp)
  · obtain rfl := Except.ok.inj h
    exact ⟨rfl, rfl, rfl⟩

theorem stop_times {p : Path} {now : ℚ} {s s' : State} (h : stop p now s = .ok s') :
    s'.total = Function.update s.total p (s.total p + (now - s.startTime p)) ∧ s'.startTime = s.startTime ∧
      s'.known = s.known := by
  unfold stop at h
  split at h
  · exact absurd h (by simp)
  · obtain rfl := Except.ok.inj h
    exact ⟨rfl, rfl, rfl⟩

theorem not_suffix_cons (n : String) (st : List String) : ¬ (n :: st) <:+ st := fun h => by
  have := h.length_le
  simp at this

theorem suffix_cons_of_ne {n : String} {st : List String} {p : Path} (h : p ≠ n :: st) : p <:+ n :: st ↔ p <:+ st := by
  rw [List.suffix_cons_iff]
  exact ⟨fun e => e.resolve_left h, Or.inr⟩

/-- C56 (print): outside of all regions, printing reads the times of all timers and leaves the same timer running; within a region
it is rejected. -/
theorem C56_print {c0 : Ptr} (hc0 : Outside c0) {s : State} {st : List String} (h : Rep c0 s st.tails) {t : ℚ} {m : Path → ℚ}
    (hm : Times st t s m) (now done : ℚ) :
    (st ≠ [] → print now done s = .error .assertion) ∧
    (st = [] → ∃ s', print now done s = .ok (([] :: s.known).map fun p => (p, m p + if p <:+ st then now - t else 0), s') ∧
      Rep c0 s' st.tails ∧ s'.known = s.known ∧
      Times st done s' fun p => m p + if p <:+ st then now - t else 0) := by
  constructor
  · intro hne
    obtain ⟨rest, hr⟩ := tails_head st
    have := (C56_stop hc0 h [] now).1 (by
      rw [hr, List.head?_cons]
      intro e
      exact hne (Option.some.inj e))
    unfold print
    rw [this]
    rfl
  · rintro rfl
    obtain ⟨s1, e1, r1⟩ := (C56_stop hc0 h [] now).2 [] rfl
    obtain ⟨k1, k2, k3⟩ := stop_times e1
    obtain ⟨s2, e2, r2⟩ := (C56_start_partial r1 [] done (Or.inr (by simp))).2 (by simp)
    obtain ⟨j1, j2, j3⟩ := start_times e2
    have hval : ∀ p, s1.total p = m p + if p <:+ ([] : List String) then now - t else 0 := fun p => by
      rw [k1]
      by_cases hp : p = []
      · subst hp
        have := hm []
        rw [if_pos (List.suffix_refl _)] at this
        rw [Function.update_self, if_pos (List.suffix_refl _)]
        linarith
      · have hs : ¬ p <:+ ([] : List String) := by
          rw [List.suffix_nil]
          exact hp
        have := hm p
        rw [if_neg hs] at this
        rw [Function.update_of_ne hp, if_neg hs]
        linarith
    have el : ([] :: s1.known).mapM (fun p => (do
        let t ← elapsed s1 p
        pure (p, t) : Except Fault (Path × ℚ))) =
        .ok (([] :: s1.known).map fun p => (p, m p + if p <:+ ([] : List String) then now - t else 0)) := by
      apply mapM_ok
      intro p _
      unfold elapsed
      rw [if_neg (not_not.2 (r1.idle p (by simp))), hval p]
      rfl
    refine ⟨s2, ?_, r2, by rw [j3, k3], fun p => ?_⟩
    · unfold print
      rw [e1]
      change (do
        let times ← ([] :: s1.known).mapM fun p => (do
          let t ← elapsed s1 p
          pure (p, t) : Except Fault (Path × ℚ))
        let s ← start [] done s1
        pure (times, s)) = _
      rw [el, k3]
      change (do
        let s ← start [] done s1
        pure (_, s)) = _
      rw [e2]
      rfl
    · beta_reduce
      rw [j1, j2, hval p]
      by_cases hp : p = []
      · subst hp
        rw [Function.update_self, if_pos (List.suffix_refl _), if_pos (List.suffix_refl _)]
        ring
      · have hs : ¬ p <:+ ([] : List String) := by
          rw [List.suffix_nil]
          exact hp
        rw [if_neg hs, if_neg hs]
        ring

/-- One call. -/
theorem call_spec {c0 : Ptr} (hc0 : Outside c0) {s : State} {st : List String} (h : Rep c0 s st.tails) {t : ℚ} {m : Path → ℚ}
    (hm : Times st t s m) {c : Call} (hc : c.Proper) (now : ℚ) :
    (specCall st c = none → call c now s = .error .assertion) ∧
    ∀ st', specCall st c = some st' → ∃ s', call c now s = .ok s' ∧ Rep c0 s' st'.tails ∧
      Times st' (finish c now) s' fun p => m p + if p <:+ st then now - t else 0 := by
  obtain ⟨rest, hr⟩ := tails_head st
  cases c with
  | start n =>
    obtain ⟨s1, e1, q1, q2, q3, q4, -, -, -⟩ := get_spec h n
    have h1 := rep_congr h q1 q2
    have hcall : call (.start n) now s = start (if n = top st then st else n :: st) now s1 := by
      unfold call
      dsimp only
      rw [e1]
      rfl
    rw [hcall]
    change (_ → _) ∧ ∀ st', (if n = top st then none else some (n :: st)) = some st' → _
    by_cases hn : n = top st
    · rw [if_pos hn]
      refine ⟨fun _ => ?_, fun st' e => ?_⟩
      · refine (C56_start_partial h1 st now (Or.inr ?_)).1 (by rw [hr]; simp)
        rw [tails_last]
        intro e
        rw [← Option.some.inj e] at hn
        exact hc hn
      · rw [if_pos hn] at e
        exact absurd e (by simp)
    · rw [if_neg hn]
      refine ⟨fun e => ?_, fun st' e => ?_⟩
      · change (if n = top st then none else some (n :: st)) = none at e
        rw [if_neg hn] at e
        exact absurd e (by simp)
      · rw [if_neg hn] at e
        obtain rfl := Option.some.inj e
        obtain ⟨s2, e2, r2⟩ := (C56_start_partial h1 (n :: st) now (Or.inr (by
          rw [tails_last]
          simp))).2 (by
            rw [List.mem_tails]
            exact not_suffix_cons n st)
        obtain ⟨j1, j2, -⟩ := start_times e2
        refine ⟨s2, e2, by rw [tails_cons]; exact r2, fun p => ?_⟩
        beta_reduce
        rw [j1, j2, q3, q4]
        have hp := hm p
        by_cases hpn : p = n :: st
        · subst hpn
          rw [if_neg (not_suffix_cons n st)] at hp
          rw [Function.update_self, if_pos (List.suffix_refl _), if_neg (not_suffix_cons n st), ← hp]
          change _ + (now - now) = _
          ring
        · rw [Function.update_of_ne hpn, ← hp]
          simp only [suffix_cons_of_ne hpn]
          change s.total p + (if p <:+ st then now - s.startTime p else 0) = _
          split <;> ring
  | stop n =>
    obtain ⟨s1, e1, q1, q2, q3, q4, -, -, -⟩ := get_spec h n
    have h1 := rep_congr h q1 q2
    have hcall : call (.stop n) now s = stop (if n = top st then st else n :: st) now s1 := by
      unfold call
      dsimp only
      rw [e1]
      rfl
    rw [hcall]
    cases st with
    | nil =>
      refine ⟨fun _ => ?_, fun st' e => absurd e (by simp [specCall])⟩
      have hn : n ≠ top [] := hc
      rw [if_neg hn]
      exact (C56_stop hc0 h1 [n] now).1 (by simp)
    | cons k st =>
      change (_ → _) ∧ ∀ st', (if n = k then some st else none) = some st' → _
      by_cases hn : n = k
      · rw [if_pos (show n = top (k :: st) from hn)]
        refine ⟨fun e => ?_, fun st' e => ?_⟩
        · change (if n = k then some st else none) = none at e
          rw [if_pos hn] at e
          exact absurd e (by simp)
        · rw [if_pos hn] at e
          obtain rfl := Option.some.inj e
          obtain ⟨s2, e2, r2⟩ := (C56_stop hc0 h1 (k :: st) now).2 st.tails (tails_cons k st)
          obtain ⟨j1, j2, -⟩ := stop_times e2
          refine ⟨s2, e2, r2, fun p => ?_⟩
          beta_reduce
          rw [j1, j2, q3, q4]
          have hp := hm p
          by_cases hpn : p = k :: st
          · subst hpn
            rw [if_pos (List.suffix_refl _)] at hp
            rw [Function.update_self, if_neg (not_suffix_cons k st), if_pos (List.suffix_refl _), ← hp]
            ring
          · rw [Function.update_of_ne hpn, ← hp]
            simp only [suffix_cons_of_ne hpn]
            change s.total p + (if p <:+ st then now - s.startTime p else 0) = _
            split <;> ring
      · rw [if_neg (show n ≠ top (k :: st) from hn)]
        refine ⟨fun _ => ?_, fun st' e => ?_⟩
        · refine (C56_stop hc0 h1 (n :: k :: st) now).1 ?_
          rw [tails_cons, List.head?_cons]
          intro e
          have := congrArg List.length (Option.some.inj e)
          simp at this
        · rw [if_neg hn] at e
          exact absurd e (by simp)
  | print d =>
    have hp := C56_print hc0 h hm now (now + d)
    cases st with
    | nil =>
      refine ⟨fun e => absurd e (by simp [specCall]), fun st' e => ?_⟩
      obtain rfl := Option.some.inj e
      obtain ⟨s', e', r', -, t'⟩ := hp.2 rfl
      refine ⟨s', ?_, r', t'⟩
      unfold call
      dsimp only
      rw [e']
      rfl
    | cons k st =>
      refine ⟨fun _ => ?_, fun st' e => absurd e (by simp [specCall])⟩
      unfold call
      dsimp only
      rw [hp.1 (by simp)]
      rfl

/-- Sequences of calls. -/
theorem run_spec {c0 : Ptr} (hc0 : Outside c0) : ∀ (es : List (Call × ℚ)) (_ : ∀ e ∈ es, e.1.Proper) {s : State}
    {st : List String} (_ : Rep c0 s st.tails) {t : ℚ} {m : Path → ℚ} (_ : Times st t s m),
    (specRun st es = none → run es s = .error .assertion) ∧
    ∀ st', specRun st es = some st' → ∃ s', run es s = .ok s' ∧ Rep c0 s' st'.tails ∧
      Times st' (endTime t es) s' fun p => m p + openTime p st t es
  | [], _, s, st, h, t, m, hm => by
    refine ⟨fun e => absurd e (by simp [specRun]), fun st' e => ?_⟩
    obtain rfl := Option.some.inj e
    refine ⟨s, rfl, h, fun p => ?_⟩
    change _ = m p + 0
    rw [add_zero]
    exact hm p
  | (c, now) :: rest, hes, s, st, h, t, m, hm => by
    have hc := call_spec hc0 h hm (hes (c, now) (by simp)) now
    change ((specCall st c).bind (fun st => specRun st rest) = none → _) ∧
      ∀ st', (specCall st c).bind (fun st => specRun st rest) = some st' → _
    cases hsp : specCall st c with
    | none =>
      refine ⟨fun _ => ?_, fun st' e => absurd e (by simp)⟩
      unfold run
      rw [hc.1 hsp]
      rfl
    | some st1 =>
      obtain ⟨s1, e1, r1, t1⟩ := hc.2 st1 hsp
      have ih := run_spec hc0 rest (fun e he => hes e (List.mem_cons_of_mem _ he)) r1 t1
      have hrun : run ((c, now) :: rest) s = run rest s1 := by
        rw [run, e1]
        rfl
      rw [hrun, Option.bind_some]
      refine ⟨ih.1, fun st' e => ?_⟩
      obtain ⟨s', a1, a2, a3⟩ := ih.2 st' e
      refine ⟨s', a1, a2, fun p => ?_⟩
      have := a3 p
      change _ = m p + ((if p <:+ st then now - t else 0) + match specCall st c with
        | none => 0
        | some st => openTime p st (finish c now) rest)
      rw [hsp]
      change s'.total p + (if p <:+ st' then endTime (finish c now) rest - s'.startTime p else 0) = _
      rw [this]
      ring

/-- The state after construction. -/
theorem init_spec {c0 : Ptr} (t0 : ℚ) : ∃ s, init c0 t0 = .ok s ∧ Rep c0 s ([] : List String).tails ∧
    Times [] t0 s fun _ => 0 := by
  have h : Rep c0 ⟨c0, fun _ => .null, fun _ => 0, fun _ => 0, []⟩ [] :=
    ⟨rfl, fun p r hp => by simp at hp, List.nodup_nil, fun _ _ => rfl⟩
  obtain ⟨s, e, r⟩ := (C56_start_partial h [] t0 (Or.inr (by simp))).2 (by simp)
  obtain ⟨j1, j2, -⟩ := start_times e
  refine ⟨s, e, r, fun p => ?_⟩
  rw [j1, j2]
  by_cases hp : p = []
  · subst hp
    rw [Function.update_self, if_pos (List.suffix_refl _)]
    simp
  · rw [if_neg (by rw [List.suffix_nil]; exact hp)]
    simp

/-- C56 (order): a sequence of calls is accepted iff it opens and closes regions like a stack; otherwise an assertion ends the
program. Missing: calls by the name "Total". -/
theorem C56_order_partial {c0 : Ptr} (hc0 : Outside c0) (t0 : ℚ) (es : List (Call × ℚ)) (hes : ∀ e ∈ es, e.1.Proper) :
    ∃ s, init c0 t0 = .ok s ∧ (specRun [] es = none → run es s = .error .assertion) ∧
      ∀ st, specRun [] es = some st → ∃ s', run es s = .ok s' ∧ s'.current = .timer st ∧
        ∀ p, p ≠ [] → (s'.parent p ≠ .null ↔ p <:+ st) := by
  obtain ⟨s, e, r, t⟩ := init_spec (c0 := c0) t0
  refine ⟨s, e, (run_spec hc0 es hes r t).1, fun st hst => ?_⟩
  obtain ⟨s', a1, a2, -⟩ := (run_spec hc0 es hes r t).2 st hst
  refine ⟨s', a1, ?_, fun p hp => ⟨fun h => ?_, fun h => ?_⟩⟩
  · obtain ⟨rest, hr⟩ := tails_head st
    rw [a2.current, hr]
    rfl
  · by_contra hc
    exact h (a2.idle p (by rw [List.mem_tails]; exact hc))
  · obtain ⟨rest, hr⟩ := suffix_of_mem ((List.mem_tails p st).2 h)
    rw [a2.chain p rest hr]
    cases rest with
    | nil =>
      have hl := tails_last st
      obtain ⟨l, hl'⟩ := hr
      rw [← hl'] at hl
      simp at hl
      exact absurd hl hp
    | cons q rest => exact Ptr.noConfusion

/-- C56 (times): the time of a closed region, and the time of an open one up to now, is the time during which it was open. -/
theorem C56_times {c0 : Ptr} (hc0 : Outside c0) (t0 : ℚ) (es : List (Call × ℚ)) (hes : ∀ e ∈ es, e.1.Proper)
    {st : List String} (hst : specRun [] es = some st) : ∃ s s', init c0 t0 = .ok s ∧ run es s = .ok s' ∧
      ∀ p, s'.total p + (if p <:+ st then endTime t0 es - s'.startTime p else 0) = openTime p [] t0 es := by
  obtain ⟨s, e, r, t⟩ := init_spec (c0 := c0) t0
  obtain ⟨s', a1, -, a3⟩ := (run_spec hc0 es hes r t).2 st hst
  refine ⟨s, s', e, a1, fun p => ?_⟩
  exact (a3 p).trans (zero_add _)

/-- Regions that are properly nested, not directly within themselves; `outer` is the enclosing region. Printing is outside. -/
inductive Nested : String → List (Call × ℚ) → Prop
  | nil (outer) : Nested outer []
  | region {outer n} {t t' : ℚ} {body rest} : n ≠ outer → Nested n body → Nested outer rest →
      Nested outer ((.start n, t) :: (body ++ (.stop n, t') :: rest))

theorem specRun_append : ∀ (es fs : List (Call × ℚ)) (st : List String),
    specRun st (es ++ fs) = (specRun st es).bind fun st => specRun st fs
  | [], _, _ => rfl
  | (c, t) :: es, fs, st => by
    change (specCall st c).bind _ = ((specCall st c).bind _).bind _
    cases specCall st c with
    | none => rfl
    | some st' => exact specRun_append es fs st'

theorem nested_spec {outer : String} {es : List (Call × ℚ)} (h : Nested outer es) :
    ∀ st, top st = outer → specRun st es = some st := by
  induction h with
  | nil => exact fun st _ => rfl
  | @region outer n t t' body rest hn _ _ ih1 ih2 =>
    intro st hst
    have h1 : specCall st (.start n) = some (n :: st) := by
      change (if n = top st then none else some (n :: st)) = _
      rw [if_neg (by rw [hst]; exact hn)]
    change (specCall st (.start n)).bind _ = _
    rw [h1, Option.bind_some, specRun_append, ih1 (n :: st) rfl, Option.bind_some]
    change (specCall (n :: st) (.stop n)).bind _ = _
    have h2 : specCall (n :: st) (.stop n) = some st := if_pos rfl
    rw [h2, Option.bind_some]
    exact ih2 st hst

/-- C56 (nested regions): they are accepted at every place, and the timer that was running before is running after. -/
theorem C56_nested {c0 : Ptr} (hc0 : Outside c0) {s : State} {st : List String} (h : Rep c0 s st.tails)
    {es : List (Call × ℚ)} (hes : ∀ e ∈ es, e.1.Proper) (hn : Nested (top st) es) :
    ∃ s', run es s = .ok s' ∧ s'.current = s.current ∧ Rep c0 s' st.tails := by
  obtain ⟨s', a1, a2, -⟩ := (run_spec hc0 es hes h (t := 0) (m := _) fun p => rfl).2 st (nested_spec hn st rfl)
  exact ⟨s', a1, by rw [a2.current, h.current], a2⟩

/-! ### Parts of a region -/

theorem sum_inner (p st : List String) {δ : ℚ} (hδ : 0 ≤ δ) : ∀ l : List String, l.Nodup →
    (l.map fun n => if n :: p <:+ st then δ else 0).sum ≤ if p <:+ st then δ else 0
  | [], _ => by
    rw [List.map_nil, List.sum_nil]
    split
    · exact hδ
    · exact le_rfl
  | n :: l, hl => by
    rw [List.map_cons, List.sum_cons]
    have hnd := List.nodup_cons.1 hl
    by_cases h : n :: p <:+ st
    · have hp : p <:+ st := (List.suffix_cons n p).trans h
      have hz : (l.map fun k => if k :: p <:+ st then δ else 0).sum = 0 := by
        apply List.sum_eq_zero
        intro x hx
        obtain ⟨k, hk, rfl⟩ := List.mem_map.1 hx
        rw [if_neg]
        intro h'
        have := (List.suffix_of_suffix_length_le h' h (by simp)).eq_of_length (by simp)
        obtain ⟨rfl, -⟩ := List.cons.inj this
        exact hnd.1 hk
      rw [if_pos h, if_pos hp, hz, add_zero]
    · rw [if_neg h, zero_add]
      exact sum_inner p st hδ l hnd.2

theorem openTime_inner (p : Path) {l : List String} (hl : l.Nodup) : ∀ (es : List (Call × ℚ)) (st : List String) (t : ℚ),
    Clock t es → (l.map fun n => openTime (n :: p) st t es).sum ≤ openTime p st t es
  | [], st, t, _ => by
    have : (l.map fun n => openTime (n :: p) st t []).sum = 0 := List.sum_eq_zero fun x hx => by
      obtain ⟨k, -, rfl⟩ := List.mem_map.1 hx
      rfl
    rw [this]
    exact le_rfl
  | (c, now) :: es, st, t, hc => by
    have h1 := sum_inner p st (sub_nonneg.2 hc.1) l hl
    have e : ∀ q : Path, openTime q st t ((c, now) :: es) = (if q <:+ st then now - t else 0) + match specCall st c with
      | none => 0
      | some st => openTime q st (finish c now) es := fun _ => rfl
    simp only [e]
    rw [List.sum_map_add]
    refine add_le_add h1 ?_
    cases hsp : specCall st c with
    | none => simp
    | some st' => exact openTime_inner p hl es st' _ hc.2.2

/-- C56 (parts): the times of the regions directly within `p` add up to at most the time of `p`; the time printed as "other"
(L212-218) is not negative. -/
theorem C56_other {c0 : Ptr} (hc0 : Outside c0) (t0 : ℚ) (es : List (Call × ℚ)) (hes : ∀ e ∈ es, e.1.Proper)
    (hclock : Clock t0 es) (hst : specRun [] es = some []) {now : ℚ} (hnow : endTime t0 es ≤ now) (done : ℚ) :
    ∃ s s' times s'', init c0 t0 = .ok s ∧ run es s = .ok s' ∧ print now done s' = .ok (times, s'') ∧
      times.map Prod.fst = [] :: s'.known ∧
      ∀ (p : Path) (l : List String) (v : ℚ) (vs : String → ℚ), l.Nodup → (p, v) ∈ times →
        (∀ n ∈ l, (n :: p, vs n) ∈ times) → (l.map vs).sum ≤ v := by
  obtain ⟨s, e, r, t⟩ := init_spec (c0 := c0) t0
  obtain ⟨s', a1, a2, a3⟩ := (run_spec hc0 es hes r t).2 [] hst
  obtain ⟨s'', b1, -⟩ := (C56_print hc0 a2 a3 now done).2 rfl
  refine ⟨s, s', _, s'', e, a1, b1, ?_, ?_⟩
  · rw [List.map_map]
    exact (List.map_congr_left fun p _ => rfl).trans (List.map_id _)
  · intro p l v vs hl hv hvs
    have hval : ∀ q w, (q, w) ∈ ([] :: s'.known).map (fun p => (p, 0 + openTime p [] t0 es +
        if p <:+ ([] : List String) then now - endTime t0 es else 0)) →
        w = openTime q [] t0 es + if q <:+ ([] : List String) then now - endTime t0 es else 0 := by
      intro q w hq
      obtain ⟨q', -, hq'⟩ := List.mem_map.1 hq
      obtain ⟨rfl, rfl⟩ := Prod.mk.inj hq'
      rw [zero_add]
    rw [hval p v hv, List.map_congr_left fun n hn => hval _ _ (hvs n hn), List.sum_map_add]
    exact add_le_add (openTime_inner p hl es [] t0 hclock) (sum_inner p [] (sub_nonneg.2 hnow) l hl)

/-! ### Disagreements and examples -/

/-- Disagreement: if the uninitialised `current_timer` is null, starting the running timer "Total" again is not rejected. Whatever
it contains, "Total" can be stopped from outside, and the next call uses a pointer to no timer. -/
theorem C56_total_fails (t0 t1 t2 : ℚ) :
    (∃ s s', init .null t0 = .ok s ∧ s.current = .timer [] ∧ call (.start "Total") t1 s = .ok s') ∧
    ∀ c0, Outside c0 → ∃ s s', init c0 t0 = .ok s ∧ call (.stop "Total") t1 s = .ok s' ∧
      ∀ n, call (.start n) t2 s' = .error .undefined := by
  refine ⟨⟨_, _, rfl, rfl, rfl⟩, fun c0 hc0 => ⟨_, _, rfl, rfl, fun n => ?_⟩⟩
  cases c0 with
  | null => rfl
  | wild => rfl
  | timer p => exact absurd rfl (hc0 p)

/-- Disagreement: printing while a region is open ends the program. -/
theorem C56_print_inside_fails (n : String) (hn : n ≠ "Total") (t0 t1 t2 d : ℚ) : ∃ s, init .null t0 = .ok s ∧
    run [(.start n, t1), (.print d, t2)] s = .error .assertion := by
  obtain ⟨s, e, h, -⟩ := C56_order_partial (c0 := .null) (fun p => Ptr.noConfusion) t0 [(.start n, t1), (.print d, t2)] (by
    intro e he
    simp only [List.mem_cons, List.not_mem_nil, or_false] at he
    rcases he with rfl | rfl
    · exact hn
    · trivial)
  refine ⟨s, e, h ?_⟩
  change (if n = top [] then none else some [n]).bind _ = none
  rw [if_neg (show n ≠ top [] from hn)]
  rfl

/-- A run with nested regions, two of them in one, and a print. -/
def sample : List (Call × ℚ) :=
  [(.start "TimeLoop", 1), (.start "AMR", 2), (.stop "AMR", 4), (.start "dt", 4), (.stop "dt", 5), (.start "AMR", 7),
    (.stop "AMR", 8), (.stop "TimeLoop", 10), (.print 1, 10), (.start "outputs", 12), (.stop "outputs", 15)]

/-- The hypotheses are met, and the times are as expected. -/
example : specRun [] sample = some [] ∧ openTime ["AMR", "TimeLoop"] [] 0 sample = 3 ∧ openTime ["TimeLoop"] [] 0 sample = 9 ∧
    openTime [] [] 0 sample = 14 ∧ Clock 0 sample := by
  refine ⟨by decide +kernel, by decide +kernel, by decide +kernel, by decide +kernel, ?_⟩
  simp only [sample, Clock, finish]
  norm_num

example : ∀ e ∈ sample, e.1.Proper := by
  intro e he
  simp only [sample, List.mem_cons, List.not_mem_nil, or_false] at he
  rcases he with rfl | rfl | rfl | rfl | rfl | rfl | rfl | rfl | rfl | rfl | rfl <;> simp [Call.Proper]

example : Nested "Total" [(.start "A", 1), (.start "B", 2), (.stop "B", 3), (.stop "A", 4)] :=
  .region (body := [(.start "B", 2), (.stop "B", 3)]) (by decide) (.region (body := []) (by decide) (.nil _) (.nil _)) (.nil _)

end Verif.Timers
