import Mathlib.Algebra.BigOperators.Fin
import Mathlib.Algebra.Order.Ring.Int
import Mathlib.Algebra.Order.BigOperators.Group.Finset
import Mathlib.Order.Bounds.Basic
import Mathlib.Tactic.IntervalCases
import Mathlib.Tactic.Linarith

/-!
# C101: the collective operations of `MpiComm`

Model of `core/src/utils/mpi/MpiComm.h`, of `MpiComm_mpi.tpp` (build with MPI) and of `MpiComm_single.tpp` (build without MPI).
The memory of each rank is a function of the address, in elements. What MPI itself does with buffers, counts and displacements is
taken from the MPI standard (first section); `none` is undefined behaviour, or a call that the standard calls erroneous.
-/

namespace Verif.Comm.Collectives

/-- Memory of one rank. -/
abbrev Mem (T : Type) := ℕ → T

/-- Memory with `count` elements written from address `q` on. -/
def blit {T : Type} (m : Mem T) (q count : ℕ) (f : ℕ → T) : Mem T := fun a => if q ≤ a ∧ a < q + count then f (a - q) else m a

/-- Two buffers without common elements. -/
def Apart (p c q c' : ℕ) : Prop := c = 0 ∨ c' = 0 ∨ p + c ≤ q ∨ q + c' ≤ p

instance (p c q c' : ℕ) : Decidable (Apart p c q c') := by unfold Apart; infer_instance

section
variable {T : Type} {n : ℕ}

/-! ### MPI -/

/-- The operators of MPI that are used. -/
inductive Operator where
  | min | max | sum | lor | land
  deriving DecidableEq

/-- Their effect on two elements. -/
def Operator.apply [LinearOrder T] [Add T] [Zero T] [One T] : Operator → T → T → T
  | .min, x, y => Min.min x y
  | .max, x, y => Max.max x y
  | .sum, x, y => x + y
  | .lor, x, y => if x ≠ 0 ∨ y ≠ 0 then 1 else 0
  | .land, x, y => if x ≠ 0 ∧ y ≠ 0 then 1 else 0

/-- Reduction in the order of the ranks `0, ..., n`. -/
def reduce (op : T → T → T) : {n : ℕ} → (Fin (n + 1) → T) → T
  | 0, f => f 0
  | _ + 1, f => op (reduce op fun i => f i.castSucc) (f (Fin.last _))

/-- Buffers of an operation with a send and a receive buffer of the same size: all in place, or all apart. The result is where
the elements are taken from. -/
def source (inPlace : Fin n → Bool) (p q : Fin n → ℕ) (count : ℕ) : Option (Fin n → ℕ) :=
  if ∀ r, inPlace r = true then some q
  else if ∀ r, inPlace r = false ∧ Apart (p r) count (q r) count then some p
  else none

/-- `::MPI_Allreduce`. -/
def mpiAllreduce (op : T → T → T) (inPlace : Fin (n + 1) → Bool) (p q : Fin (n + 1) → ℕ) (count : ℕ)
    (m : Fin (n + 1) → Mem T) : Option (Fin (n + 1) → Mem T) :=
  (source inPlace p q count).map fun b r => blit (m r) (q r) count fun i => reduce op fun s => m s (b s + i)

/-- `::MPI_Scan`: rank `r` gets the reduction over the ranks up to `r`. -/
def mpiScan (op : T → T → T) (inPlace : Fin (n + 1) → Bool) (p q : Fin (n + 1) → ℕ) (count : ℕ)
    (m : Fin (n + 1) → Mem T) : Option (Fin (n + 1) → Mem T) :=
  (source inPlace p q count).map fun b r => blit (m r) (q r) count fun i =>
    reduce op (n := r) fun s => m ⟨s, by omega⟩ (b ⟨s, by omega⟩ + i)

/-- `::MPI_Allgather`: `count` elements of each rank, not in place. -/
def mpiAllgather (p q : Fin n → ℕ) (count : ℕ) (m : Fin n → Mem T) : Option (Fin n → Mem T) :=
  if ∀ r, Apart (p r) count (q r) (n * count) then
    some fun r => blit (m r) (q r) (n * count) fun i =>
      if h : i / count < n then m ⟨i / count, h⟩ (p ⟨i / count, h⟩ + i % count) else m r (q r + i)
  else none

/-- `::MPI_Allgatherv` in place: rank `s` contributes what its own buffer has at its place. `none` if the places overlap. -/
def mpiAllgathervInPlace (q : Fin n → ℕ) (counts displs : Fin n → ℕ) (m : Fin n → Mem T) : Option (Fin n → Mem T) :=
  if ∀ s t, s ≠ t → Apart (displs s) (counts s) (displs t) (counts t) then
    some fun r a =>
      match (List.finRange n).find? fun s => decide (q r + displs s ≤ a ∧ a < q r + displs s + counts s) with
      | some s => m s (q s + (a - q r))
      | none => m r a
  else none

/-- `::MPI_Alltoallv`: elements for rank `r` are at `senddispls s r` of the send buffer of rank `s`. `none` if counts do not agree,
if places of the receive buffer overlap, or if a place is in the send buffer. (`MPI_Alltoall` is the case of equal counts.) -/
def mpiAlltoallv (p q : Fin n → ℕ) (sc sd rc rd : Fin n → Fin n → ℕ) (m : Fin n → Mem T) : Option (Fin n → Mem T) :=
  if (∀ s r, sc s r = rc r s) ∧ (∀ r s t, s ≠ t → Apart (rd r s) (rc r s) (rd r t) (rc r t)) ∧
      (∀ r s t, Apart (p r + sd r s) (sc r s) (q r + rd r t) (rc r t)) then
    some fun r a =>
      match (List.finRange n).find? fun s => decide (q r + rd r s ≤ a ∧ a < q r + rd r s + rc r s) with
      | some s => m s (p s + sd s r + (a - (q r + rd r s)))
      | none => m r a
  else none

/-- `::MPI_Bcast`. -/
def mpiBcast (p : Fin n → ℕ) (count : ℕ) (root : Fin n) (m : Fin n → Mem T) : Fin n → Mem T :=
  fun r => blit (m r) (p r) count fun i => m root (p root + i)

/-! ### The build with MPI -/

/-- `MpiComm.h` L24-31: the values of `MPI_Op_t`. -/
def opMIN := 0
def opMAX := 1
def opSUM := 2
def opLOR := 3
def opLAND := 4

/-- `MpiComm_mpi.tpp` L28-34. -/
def mpiOp : List Operator := [.min, .max, .sum, .lor, .land]

/-- L55-62: `sendbuf == recvbuf` is replaced by `MPI_IN_PLACE`. -/
def allreduce [LinearOrder T] [Add T] [Zero T] [One T] (p q : Fin (n + 1) → ℕ) (count op : ℕ) (m : Fin (n + 1) → Mem T) :
    Option (Fin (n + 1) → Mem T) :=
  match mpiOp[op]? with
  | some o => mpiAllreduce o.apply (fun r => decide (p r = q r)) p q count m
  | none => none

/-- L64-71. -/
def scan [LinearOrder T] [Add T] [Zero T] [One T] (p q : Fin (n + 1) → ℕ) (count op : ℕ) (m : Fin (n + 1) → Mem T) :
    Option (Fin (n + 1) → Mem T) :=
  match mpiOp[op]? with
  | some o => mpiScan o.apply (fun r => decide (p r = q r)) p q count m
  | none => none

/-- L73-79. -/
def allgather (p q : Fin n → ℕ) (count : ℕ) (m : Fin n → Mem T) : Option (Fin n → Mem T) := mpiAllgather p q count m

/-- The largest `int`. -/
def intMax : ℕ := 2 ^ 31 - 1

/-- L88-90: the loop over `i = 1, ..., comm_size - 1`, after `i` of its steps are done. `none`: an `int` overflows. -/
def displsLoop (counts : ℕ → ℕ) : ℕ → Option (ℕ → ℕ)
  | 0 => some fun _ => 0
  | i + 1 =>
    match displsLoop counts i with
    | none => none
    | some d =>
      if d i + counts i ≤ intMax then some fun j => if j = i + 1 then d i + counts i else d j
      else none

/-- L81-96; the counts gathered at L87 are those of all ranks. -/
def allgathervInPlace (q : Fin n → ℕ) (count : Fin n → ℕ) (m : Fin n → Mem T) : Option (Fin n → Mem T) :=
  match displsLoop (fun i => if h : i < n then count ⟨i, h⟩ else 0) (n - 1) with
  | none => none
  | some d => mpiAllgathervInPlace q count (fun s => d s) m

/-- L121-128 for one of the two arrays: displacements and the sum after `i` steps. `none`: an `int` overflows. -/
def displsSum (counts : ℕ → ℕ) : ℕ → Option ((ℕ → ℕ) × ℕ)
  | 0 => some (fun _ => 0, 0)
  | i + 1 =>
    match displsSum counts i with
    | none => none
    | some (d, sum) =>
      if sum + counts i ≤ intMax then some (fun j => if j = i then sum else d j, sum + counts i) else none

/-- The displacements that one rank computes. -/
def displsOf (counts : Fin n → ℕ) : Option (Fin n → ℕ) :=
  (displsSum (fun i => if h : i < n then counts ⟨i, h⟩ else 0) n).map fun d s => d.1 s

/-- All ranks. -/
def allRanks {α : Type} {n : ℕ} (f : Fin n → Option α) : Option (Fin n → α) :=
  if h : ∀ r, (f r).isSome = true then some fun r => (f r).get (h r) else none

/-- L114-132. -/
def alltoallv (p q : Fin n → ℕ) (sc rc : Fin n → Fin n → ℕ) (m : Fin n → Mem T) : Option (Fin n → Mem T) :=
  match allRanks fun r => displsOf (sc r), allRanks fun r => displsOf (rc r) with
  | some sd, some rd => mpiAlltoallv p q sc sd rc rd m
  | _, _ => none

/-- L105-112: rank `s` has `sendcount` elements for each rank. -/
def alltoall (p q : Fin n → ℕ) (count : ℕ) (m : Fin n → Mem T) : Option (Fin n → Mem T) :=
  mpiAlltoallv p q (fun _ _ => count) (fun _ r => r * count) (fun _ _ => count) (fun _ s => s * count) m

/-- L98-103. -/
def bcast (p : Fin n → ℕ) (count : ℕ) (root : Fin n) (m : Fin n → Mem T) : Fin n → Mem T := mpiBcast p count root m

/-! ### The build without MPI -/

/-- `std::copy( first, last, dest )`, here with `last = first + len` for an integer `len`. `none`: `last` is before `first`, or
`dest` is inside of the source. -/
def stdCopy (first : ℕ) (len : ℤ) (dest : ℕ) (m : Mem T) : Option (Mem T) :=
  if len < 0 then none
  else if first ≤ dest ∧ (dest : ℤ) < first + len then none
  else some (blit m dest len.toNat fun i => m (first + i))

/-- `MpiComm_single.tpp` L19-23. -/
def singleAllreduce (p q count : ℕ) (m : Mem T) : Option (Mem T) := stdCopy p ((count : ℤ) - 1) q m

/-- L29-33. -/
def singleAlltoall (p sendcount q : ℕ) (m : Mem T) : Option (Mem T) := stdCopy p ((sendcount : ℤ) - 1) q m

/-- L25-27. -/
def singleBcast (m : Mem T) : Mem T := m

/-! ### Lemmas -/

theorem blit_in {m : Mem T} {q count : ℕ} {f : ℕ → T} {i : ℕ} (hi : i < count) : blit m q count f (q + i) = f i := by
  unfold blit
  rw [if_pos ⟨by omega, by omega⟩, Nat.add_sub_cancel_left]

theorem blit_out {m : Mem T} {q count : ℕ} {f : ℕ → T} {a : ℕ} (ha : a < q ∨ q + count ≤ a) : blit m q count f a = m a := by
  unfold blit
  rw [if_neg (by omega)]

theorem source_same (q : Fin n → ℕ) (count : ℕ) : source (fun r => decide (q r = q r)) q q count = some q := by
  unfold source
  rw [if_pos (by simp)]

theorem source_apart {p q : Fin n → ℕ} {count : ℕ} (hc : 0 < count) (h : ∀ r, Apart (p r) count (q r) count) :
    source (fun r => decide (p r = q r)) p q count = some p := by
  have hne : ∀ r, p r ≠ q r := by
    intro r
    have := h r
    unfold Apart at this
    omega
  unfold source
  by_cases hall : ∀ r, decide (p r = q r) = true
  · rw [if_pos hall]
    congr 1
    funext r
    have := hall r
    rw [decide_eq_true_eq] at this
    exact absurd this (hne r)
  · rw [if_neg hall, if_pos]
    intro r
    exact ⟨by simp [hne r], h r⟩

theorem displsLoop_gives {counts : ℕ → ℕ} {i : ℕ} (h : ∑ k ∈ Finset.range i, counts k ≤ intMax) :
    ∃ d, displsLoop counts i = some d ∧ ∀ j ≤ i, d j = ∑ k ∈ Finset.range j, counts k := by
  induction i with
  | zero => exact ⟨_, rfl, fun j hj => by rw [Nat.le_zero.1 hj]; simp⟩
  | succ i ih =>
    rw [Finset.sum_range_succ] at h
    obtain ⟨d, h1, h2⟩ := ih (by omega)
    have e := h2 i (le_refl i)
    unfold displsLoop
    rw [h1]
    simp only [e, if_pos h]
    refine ⟨_, rfl, fun j hj => ?_⟩
    by_cases hji : j = i + 1
    · rw [if_pos hji, hji, Finset.sum_range_succ]
    · rw [if_neg hji]
      exact h2 j (by omega)

theorem displsSum_gives {counts : ℕ → ℕ} {i : ℕ} (h : ∑ k ∈ Finset.range i, counts k ≤ intMax) :
    ∃ d, displsSum counts i = some (d, ∑ k ∈ Finset.range i, counts k) ∧ ∀ j < i, d j = ∑ k ∈ Finset.range j, counts k := by
  induction i with
  | zero => exact ⟨_, rfl, fun j hj => by omega⟩
  | succ i ih =>
    rw [Finset.sum_range_succ] at h
    obtain ⟨d, h1, h2⟩ := ih (by omega)
    unfold displsSum
    rw [h1]
    simp only [if_pos h]
    refine ⟨_, by rw [Finset.sum_range_succ], fun j hj => ?_⟩
    by_cases hji : j = i
    · rw [if_pos hji, hji]
    · rw [if_neg hji]
      exact h2 j (by omega)

theorem displsSum_none {counts : ℕ → ℕ} {i : ℕ} (h : intMax < ∑ k ∈ Finset.range i, counts k) : displsSum counts i = none := by
  induction i with
  | zero => simp [intMax] at h
  | succ i ih =>
    unfold displsSum
    rcases Nat.lt_or_ge intMax (∑ k ∈ Finset.range i, counts k) with h1 | h1
    · rw [ih h1]
    · obtain ⟨d, e, -⟩ := displsSum_gives h1
      rw [e]
      rw [Finset.sum_range_succ] at h
      simp only [if_neg (by omega : ¬ ∑ k ∈ Finset.range i, counts k + counts i ≤ intMax)]

end

/-! ### Specification -/

/-- Number of elements of the ranks before `r`. -/
def before {n : ℕ} (counts : Fin n → ℕ) (r : Fin n) : ℕ := ∑ s ∈ Finset.univ.filter (· < r), counts s

theorem before_eq {n : ℕ} (counts : Fin n → ℕ) (r : Fin n) :
    ∑ k ∈ Finset.range r, (if h : k < n then counts ⟨k, h⟩ else 0) = before counts r := by
  unfold before
  refine Finset.sum_bij' (fun k hk => ⟨k, by have := Finset.mem_range.1 hk; omega⟩) (fun s _ => s.1) ?_ ?_ ?_ ?_ ?_
  · intro k hk
    have := Finset.mem_range.1 hk
    simp only [Finset.mem_filter, Finset.mem_univ, true_and]
    exact this
  · intro s hs
    simp only [Finset.mem_filter, Finset.mem_univ, true_and] at hs
    exact Finset.mem_range.2 hs
  · intro k hk
    rfl
  · intro s hs
    rfl
  · intro k hk
    have := Finset.mem_range.1 hk
    rw [dif_pos (by omega)]

theorem total_eq {n : ℕ} (counts : Fin n → ℕ) :
    ∑ k ∈ Finset.range n, (if h : k < n then counts ⟨k, h⟩ else 0) = ∑ s, counts s := by
  rw [Finset.sum_range]
  refine Finset.sum_congr rfl fun s _ => ?_
  rw [dif_pos s.2]

theorem before_add {n : ℕ} (counts : Fin n → ℕ) {r t : Fin n} (h : r < t) : before counts r + counts r ≤ before counts t := by
  unfold before
  rw [add_comm, ← Finset.sum_insert (s := Finset.univ.filter (· < r)) (a := r) (by simp)]
  refine Finset.sum_le_sum_of_subset fun s hs => ?_
  simp only [Finset.mem_insert, Finset.mem_filter, Finset.mem_univ, true_and] at hs ⊢
  rcases hs with rfl | hs
  · exact h
  · exact lt_trans hs h

theorem before_apart {n : ℕ} (counts : Fin n → ℕ) {r t : Fin n} (h : r ≠ t) :
    Apart (before counts r) (counts r) (before counts t) (counts t) := by
  unfold Apart
  rcases lt_or_gt_of_ne h with h | h
  · exact Or.inr (Or.inr (Or.inl (before_add counts h)))
  · exact Or.inr (Or.inr (Or.inr (before_add counts h)))

theorem before_le {n : ℕ} (counts : Fin n → ℕ) (r : Fin n) : before counts r + counts r ≤ ∑ s, counts s := by
  unfold before
  rw [add_comm, ← Finset.sum_insert (s := Finset.univ.filter (· < r)) (a := r) (by simp)]
  exact Finset.sum_le_sum_of_subset (Finset.subset_univ _)

/-- The first place that holds an address, when places do not overlap. -/
theorem find_place {n : ℕ} {q : ℕ} {displs counts : Fin n → ℕ}
    (h : ∀ s t, s ≠ t → Apart (displs s) (counts s) (displs t) (counts t)) {s : Fin n} {i : ℕ} (hi : i < counts s) :
    ((List.finRange n).find? fun t => decide (q + displs t ≤ q + displs s + i ∧ q + displs s + i < q + displs t + counts t)) =
      some s := by
  rw [List.find?_eq_some_iff_append]
  refine ⟨by simp [hi], ?_⟩
  obtain ⟨l1, l2, hl⟩ := List.append_of_mem (List.mem_finRange s)
  refine ⟨l1, l2, hl, fun t ht => ?_⟩
  have nd := List.nodup_finRange n
  rw [hl] at nd
  have hne : s ≠ t := by
    rintro rfl
    exact (List.disjoint_of_nodup_append nd) ht (by simp)
  have := h s t hne
  unfold Apart at this
  simp only [Bool.not_eq_eq_eq_not, Bool.not_true, decide_eq_false_iff_not]
  omega

theorem find_nowhere {n : ℕ} {q : ℕ} {counts : Fin n → ℕ} {a : ℕ} (ha : a < q ∨ q + ∑ s, counts s ≤ a) :
    ((List.finRange n).find? fun t => decide (q + before counts t ≤ a ∧ a < q + before counts t + counts t)) = none := by
  rw [List.find?_eq_none]
  intro t _
  have := before_le counts t
  simp only [decide_eq_true_eq]
  omega

/-! ### C101: the build with MPI -/

section
variable {T : Type} {n : ℕ}

/-- The reduction over all ranks. -/
def Reduces [LinearOrder T] [AddCommMonoid T] (op : ℕ) (f : Fin (n + 1) → T) (x : T) : Prop :=
  (op = opMIN ∧ IsLeast (Set.range f) x) ∨ (op = opMAX ∧ IsGreatest (Set.range f) x) ∨ (op = opSUM ∧ x = ∑ r, f r) ∨
    (op = opLOR ∧ (x ≠ 0 ↔ ∃ r, f r ≠ 0)) ∨ (op = opLAND ∧ (x ≠ 0 ↔ ∀ r, f r ≠ 0))

variable [LinearOrder T] [AddCommMonoid T] [One T] [NeZero (1 : T)]

omit [AddCommMonoid T] [One T] [NeZero (1 : T)] in
theorem reduce_min (f : Fin (n + 1) → T) : IsLeast (Set.range f) (reduce Min.min f) := by
  induction n with
  | zero => exact ⟨⟨0, rfl⟩, by rintro _ ⟨i, rfl⟩; rw [Fin.fin_one_eq_zero i]; rfl⟩
  | succ n ih =>
    obtain ⟨⟨i, hi⟩, h2⟩ := ih fun i => f i.castSucc
    unfold reduce
    constructor
    · rcases min_choice (reduce Min.min fun i => f i.castSucc) (f (Fin.last _)) with h | h
      · exact ⟨i.castSucc, by rw [h, ← hi]⟩
      · exact ⟨Fin.last _, h.symm⟩
    · rintro _ ⟨j, rfl⟩
      rcases Fin.eq_castSucc_or_eq_last j with ⟨j, rfl⟩ | rfl
      · exact (min_le_left _ _).trans (h2 ⟨j, rfl⟩)
      · exact min_le_right _ _

omit [AddCommMonoid T] [One T] [NeZero (1 : T)] in
theorem reduce_max (f : Fin (n + 1) → T) : IsGreatest (Set.range f) (reduce Max.max f) := by
  induction n with
  | zero => exact ⟨⟨0, rfl⟩, by rintro _ ⟨i, rfl⟩; rw [Fin.fin_one_eq_zero i]; rfl⟩
  | succ n ih =>
    obtain ⟨⟨i, hi⟩, h2⟩ := ih fun i => f i.castSucc
    unfold reduce
    constructor
    · rcases max_choice (reduce Max.max fun i => f i.castSucc) (f (Fin.last _)) with h | h
      · exact ⟨i.castSucc, by rw [h, ← hi]⟩
      · exact ⟨Fin.last _, h.symm⟩
    · rintro _ ⟨j, rfl⟩
      rcases Fin.eq_castSucc_or_eq_last j with ⟨j, rfl⟩ | rfl
      · exact (h2 ⟨j, rfl⟩).trans (le_max_left _ _)
      · exact le_max_right _ _

omit [LinearOrder T] [One T] [NeZero (1 : T)] in
theorem reduce_sum (f : Fin (n + 1) → T) : reduce (fun x y => x + y) f = ∑ r, f r := by
  induction n with
  | zero => simp [reduce]
  | succ n ih =>
    unfold reduce
    rw [ih, Fin.sum_univ_castSucc (n := n + 1)]

theorem reduce_lor (f : Fin (n + 1) → T) : reduce (Operator.apply .lor) f ≠ 0 ↔ ∃ r, f r ≠ 0 := by
  induction n with
  | zero => exact ⟨fun h => ⟨0, h⟩, fun ⟨i, h⟩ => by rw [Fin.fin_one_eq_zero i] at h; exact h⟩
  | succ n ih =>
    unfold reduce
    have := ih fun i => f i.castSucc
    change (if _ then (1 : T) else 0) ≠ 0 ↔ _
    split
    · rename_i h
      rw [this] at h
      refine ⟨fun _ => ?_, fun _ => NeZero.ne 1⟩
      rcases h with ⟨i, h⟩ | h
      · exact ⟨_, h⟩
      · exact ⟨_, h⟩
    · rename_i h
      rw [this] at h
      refine ⟨fun h' => absurd rfl h', fun ⟨j, hj⟩ => absurd ?_ h⟩
      rcases Fin.eq_castSucc_or_eq_last j with ⟨j, rfl⟩ | rfl
      · exact Or.inl ⟨j, hj⟩
      · exact Or.inr hj

theorem reduce_land (f : Fin (n + 1) → T) : reduce (Operator.apply .land) f ≠ 0 ↔ ∀ r, f r ≠ 0 := by
  induction n with
  | zero => exact ⟨fun h i => by rw [Fin.fin_one_eq_zero i]; exact h, fun h => h 0⟩
  | succ n ih =>
    unfold reduce
    have := ih fun i => f i.castSucc
    change (if _ then (1 : T) else 0) ≠ 0 ↔ _
    split
    · rename_i h
      rw [this] at h
      refine ⟨fun _ j => ?_, fun _ => NeZero.ne 1⟩
      rcases Fin.eq_castSucc_or_eq_last j with ⟨j, rfl⟩ | rfl
      · exact h.1 j
      · exact h.2
    · rename_i h
      rw [this] at h
      exact ⟨fun h' => absurd rfl h', fun hj => absurd ⟨fun i => hj _, hj _⟩ h⟩

/-- The table of operators has the order of the enumeration. -/
theorem table_reduces {op : ℕ} (h : op < 5) : ∃ o, mpiOp[op]? = some o ∧
    ∀ {n : ℕ} (f : Fin (n + 1) → T), Reduces op f (reduce o.apply f) := by
  interval_cases op
  · exact ⟨_, rfl, fun f => Or.inl ⟨rfl, reduce_min f⟩⟩
  · exact ⟨_, rfl, fun f => Or.inr (Or.inl ⟨rfl, reduce_max f⟩)⟩
  · exact ⟨_, rfl, fun f => Or.inr (Or.inr (Or.inl ⟨rfl, reduce_sum f⟩))⟩
  · exact ⟨_, rfl, fun f => Or.inr (Or.inr (Or.inr (Or.inl ⟨rfl, reduce_lor f⟩)))⟩
  · exact ⟨_, rfl, fun f => Or.inr (Or.inr (Or.inr (Or.inr ⟨rfl, reduce_land f⟩)))⟩

/-- **C101** (`MPI_Allreduce`): with the same buffer for both, or with buffers apart, all ranks get the reduction over the ranks;
nothing else is written. -/
theorem C101_allreduce {p q : Fin (n + 1) → ℕ} {count op : ℕ} (hop : op < 5) (hc : 0 < count)
    (hb : p = q ∨ ∀ r, Apart (p r) count (q r) count) (m : Fin (n + 1) → Mem T) :
    ∃ m', allreduce p q count op m = some m' ∧ ∀ r,
      (∀ i < count, Reduces op (fun s => m s (p s + i)) (m' r (q r + i))) ∧
      ∀ a, (a < q r ∨ q r + count ≤ a) → m' r a = m r a := by
  obtain ⟨o, e, ho⟩ := table_reduces (T := T) hop
  have hsrc : source (fun r => decide (p r = q r)) p q count = some p := by
    rcases hb with rfl | hb
    · exact source_same p count
    · exact source_apart hc hb
  unfold allreduce mpiAllreduce
  rw [e]
  simp only [hsrc, Option.map_some]
  exact ⟨_, rfl, fun r => ⟨fun i hi => by rw [blit_in hi]; exact ho _, fun a ha => blit_out ha⟩⟩

/-- **C101** (`MPI_Scan`): rank `r` gets the reduction over the ranks up to `r`. -/
theorem C101_scan {p q : Fin (n + 1) → ℕ} {count op : ℕ} (hop : op < 5) (hc : 0 < count)
    (hb : p = q ∨ ∀ r, Apart (p r) count (q r) count) (m : Fin (n + 1) → Mem T) :
    ∃ m', scan p q count op m = some m' ∧ ∀ r : Fin (n + 1),
      (∀ i < count, Reduces (n := r) op (fun s => m ⟨s, by omega⟩ (p ⟨s, by omega⟩ + i)) (m' r (q r + i))) ∧
      ∀ a, (a < q r ∨ q r + count ≤ a) → m' r a = m r a := by
  obtain ⟨o, e, ho⟩ := table_reduces (T := T) hop
  have hsrc : source (fun r => decide (p r = q r)) p q count = some p := by
    rcases hb with rfl | hb
    · exact source_same p count
    · exact source_apart hc hb
  unfold scan mpiScan
  rw [e]
  simp only [hsrc, Option.map_some]
  exact ⟨_, rfl, fun r => ⟨fun i hi => by rw [blit_in hi]; exact ho _, fun a ha => blit_out ha⟩⟩

end

section
variable {T : Type} {n : ℕ}

/-- **C101** (`MPI_Allgather`). -/
theorem C101_allgather {p q : Fin n → ℕ} {count : ℕ} (hb : ∀ r, Apart (p r) count (q r) (n * count)) (m : Fin n → Mem T) :
    ∃ m', allgather p q count m = some m' ∧ ∀ r,
      (∀ s : Fin n, ∀ i < count, m' r (q r + s * count + i) = m s (p s + i)) ∧
      ∀ a, (a < q r ∨ q r + n * count ≤ a) → m' r a = m r a := by
  unfold allgather mpiAllgather
  rw [if_pos hb]
  refine ⟨_, rfl, fun r => ⟨fun s i hi => ?_, fun a ha => blit_out ha⟩⟩
  have hlt : s * count + i < n * count := by
    have : (s + 1) * count ≤ n * count := Nat.mul_le_mul_right _ s.2
    rw [Nat.add_mul, Nat.one_mul] at this
    omega
  have e1 : (s * count + i) / count = s := by
    rw [Nat.mul_comm, Nat.mul_add_div (by omega), Nat.div_eq_of_lt hi, Nat.add_zero]
  have e2 : (s * count + i) % count = i := by rw [Nat.mul_comm, Nat.mul_add_mod, Nat.mod_eq_of_lt hi]
  rw [Nat.add_assoc, blit_in hlt]
  have hs : (s * count + i) / count < n := by rw [e1]; exact s.2
  rw [dif_pos hs]
  have : (⟨(s * count + i) / count, hs⟩ : Fin n) = s := Fin.ext e1
  rw [this, e2]

/-- **C101** (`MPI_Allgatherv_inplace`): when the elements of every rank are in its buffer after places for those of the ranks
before, all ranks get all of them. -/
theorem C101_allgatherv {q : Fin n → ℕ} {count : Fin n → ℕ} (hsum : ∑ r, count r ≤ intMax) (m : Fin n → Mem T) :
    ∃ m', allgathervInPlace q count m = some m' ∧ ∀ r,
      (∀ s, ∀ i < count s, m' r (q r + before count s + i) = m s (q s + before count s + i)) ∧
      ∀ a, (a < q r ∨ q r + ∑ s, count s ≤ a) → m' r a = m r a := by
  have hle : ∑ k ∈ Finset.range (n - 1), (if h : k < n then count ⟨k, h⟩ else 0) ≤ intMax := by
    refine le_trans ?_ (le_trans (total_eq count).le hsum)
    exact Finset.sum_le_sum_of_subset (Finset.range_mono (Nat.sub_le n 1))
  obtain ⟨d, e, hd⟩ := displsLoop_gives hle
  have hd' : ∀ s : Fin n, d s = before count s := fun s => by rw [hd s (by omega), before_eq]
  have hfun : (fun s : Fin n => d s) = before count := funext hd'
  unfold allgathervInPlace
  rw [e]
  simp only
  rw [hfun]
  unfold mpiAllgathervInPlace
  have hap : ∀ s t, s ≠ t → Apart (before count s) (count s) (before count t) (count t) := fun s t h => before_apart count h
  rw [if_pos hap]
  refine ⟨_, rfl, fun r => ⟨fun s i hi => ?_, fun a ha => ?_⟩⟩
  · simp only [find_place hap hi]
    congr 1
    omega
  · simp only [find_nowhere ha]

/-- **C101** (`MPI_Alltoallv`): rank `r` gets, after the elements of the ranks before `s`, those that rank `s` has for it after
those for the ranks before `r`. -/
theorem C101_alltoallv {p q : Fin n → ℕ} {sc rc : Fin n → Fin n → ℕ} (hcount : ∀ s r, sc s r = rc r s)
    (hs : ∀ r, ∑ s, sc r s ≤ intMax) (hr : ∀ r, ∑ s, rc r s ≤ intMax)
    (hb : ∀ r, Apart (p r) (∑ s, sc r s) (q r) (∑ s, rc r s)) (m : Fin n → Mem T) :
    ∃ m', alltoallv p q sc rc m = some m' ∧ ∀ r,
      (∀ s, ∀ i < rc r s, m' r (q r + before (rc r) s + i) = m s (p s + before (sc s) r + i)) ∧
      ∀ a, (a < q r ∨ q r + ∑ s, rc r s ≤ a) → m' r a = m r a := by
  have key : ∀ c : Fin n → ℕ, ∑ s, c s ≤ intMax → displsOf c = some (before c) := by
    intro c hc
    obtain ⟨d, e, hd⟩ := displsSum_gives (counts := fun i => if h : i < n then c ⟨i, h⟩ else 0) (i := n)
      (le_trans (total_eq c).le hc)
    unfold displsOf
    rw [e]
    simp only [Option.map_some, Option.some.injEq]
    funext s
    rw [hd s s.2, before_eq]
  have keyA : ∀ c : Fin n → Fin n → ℕ, (∀ r, ∑ s, c r s ≤ intMax) → allRanks (fun r => displsOf (c r)) =
      some fun r => before (c r) := by
    intro c hc
    unfold allRanks
    rw [dif_pos (fun r => by simp only [key _ (hc r), Option.isSome_some])]
    congr 1
    funext r
    simp only [key _ (hc r), Option.get_some]
  unfold alltoallv mpiAlltoallv
  rw [keyA sc hs, keyA rc hr]
  have hap : ∀ r s t, s ≠ t → Apart (before (rc r) s) (rc r s) (before (rc r) t) (rc r t) := fun r s t h => before_apart _ h
  have hap2 : ∀ r s t, Apart (p r + before (sc r) s) (sc r s) (q r + before (rc r) t) (rc r t) := by
    intro r s t
    have h1 := before_le (sc r) s
    have h2 := before_le (rc r) t
    have h3 := hb r
    unfold Apart at *
    omega
  simp only
  rw [if_pos ⟨hcount, hap, hap2⟩]
  refine ⟨_, rfl, fun r => ⟨fun s i hi => ?_, fun a ha => ?_⟩⟩
  · simp only [find_place (hap r) hi]
    congr 1
    omega
  · simp only [find_nowhere ha]

/-- **C101** (`MPI_Alltoall`). -/
theorem C101_alltoall {p q : Fin n → ℕ} {count : ℕ} (hb : ∀ r, Apart (p r) (n * count) (q r) (n * count)) (m : Fin n → Mem T) :
    ∃ m', alltoall p q count m = some m' ∧ ∀ r s : Fin n, ∀ i < count, m' r (q r + s * count + i) = m s (p s + r * count + i) := by
  have hmul : ∀ s : Fin n, s * count + count ≤ n * count := by
    intro s
    have : (s + 1) * count ≤ n * count := Nat.mul_le_mul_right _ s.2
    rwa [Nat.add_mul, Nat.one_mul] at this
  have hap : ∀ r s t : Fin n, s ≠ t → Apart (s * count) count (t * count) count := by
    intro r s t hne
    have hne' : (s : ℕ) ≠ t := fun h => hne (Fin.ext h)
    unfold Apart
    rcases Nat.lt_or_gt_of_ne hne' with h | h
    · have : (s + 1) * count ≤ t * count := Nat.mul_le_mul_right _ h
      rw [Nat.add_mul, Nat.one_mul] at this
      omega
    · have : (t + 1) * count ≤ s * count := Nat.mul_le_mul_right _ h
      rw [Nat.add_mul, Nat.one_mul] at this
      omega
  have hap2 : ∀ r s t : Fin n, Apart (p r + s * count) count (q r + t * count) count := by
    intro r s t
    have h1 := hmul s
    have h2 := hmul t
    have h3 := hb r
    unfold Apart at *
    omega
  unfold alltoall mpiAlltoallv
  rw [if_pos ⟨fun _ _ => rfl, hap, hap2⟩]
  refine ⟨_, rfl, fun r s i hi => ?_⟩
  simp only [find_place (displs := fun s : Fin n => (s : ℕ) * count) (counts := fun _ => count) (hap r) hi]
  congr 1
  omega

/-- **C101** (`MPI_Bcast`). -/
theorem C101_bcast {p : Fin n → ℕ} {count : ℕ} {root : Fin n} (m : Fin n → Mem T) (r : Fin n) :
    (∀ i < count, bcast p count root m r (p r + i) = m root (p root + i)) ∧
      ∀ a, (a < p r ∨ p r + count ≤ a) → bcast p count root m r a = m r a :=
  ⟨fun i hi => by unfold bcast mpiBcast; exact blit_in hi, fun a ha => by unfold bcast mpiBcast; exact blit_out ha⟩

/-- Disagreement: 2^31 elements or more to send from one rank, to all others together, overflow an `int`. -/
theorem C101_large_fails {p q : Fin n → ℕ} {sc rc : Fin n → Fin n → ℕ} {r : Fin n} (h : 2 ^ 31 ≤ ∑ s, sc r s) (m : Fin n → Mem T) :
    alltoallv p q sc rc m = none := by
  have e : displsOf (sc r) = none := by
    unfold displsOf
    rw [displsSum_none]
    · rfl
    · rw [total_eq]
      unfold intMax
      omega
  have : allRanks (fun r => displsOf (sc r)) = none := by
    unfold allRanks
    rw [dif_neg]
    intro hall
    have := hall r
    simp only [e, Option.isSome_none, Bool.false_eq_true] at this
  unfold alltoallv
  rw [this]

/-! ### C101: the build without MPI -/

/-- **C101** (one process, partial): of the elements of the buffer all but the last are copied. Missing: the last, see
`C101_single_allreduce_fails`. -/
theorem C101_single_partial {p q count : ℕ} (hc : 0 < count) (hb : Apart p count q count) (m : Mem T) :
    ∃ m', singleAllreduce p q count m = some m' ∧ singleAlltoall p count q m = some m' ∧
      (∀ i, i + 1 < count → m' (q + i) = m (p + i)) ∧ ∀ a, (a < q ∨ q + count ≤ a) → m' a = m a := by
  have e : ¬ ((count : ℤ) - 1 < 0) := by omega
  have e' : ¬ (p ≤ q ∧ (q : ℤ) < p + ((count : ℤ) - 1)) := by
    unfold Apart at hb
    omega
  unfold singleAllreduce singleAlltoall stdCopy
  rw [if_neg e, if_neg e']
  refine ⟨_, rfl, rfl, fun i hi => ?_, fun a ha => ?_⟩
  · rw [blit_in (by omega)]
  · exact blit_out (by omega)

/-- **C101** (one process): the broadcast, which does nothing, is that of MPI on one rank. -/
theorem C101_single_bcast {p : Fin 1 → ℕ} {count : ℕ} {root : Fin 1} (m : Fin 1 → Mem T) :
    singleBcast (m 0) = bcast p count root m 0 := by
  funext a
  obtain ⟨h1, h2⟩ := C101_bcast (p := p) (count := count) (root := root) m 0
  unfold singleBcast
  by_cases h : a < p 0 ∨ p 0 + count ≤ a
  · exact (h2 a h).symm
  · have := h1 (a - p 0) (by omega)
    rw [Subsingleton.elim root 0, Nat.add_sub_cancel' (by omega)] at this
    rw [Subsingleton.elim root 0, this]

/-- Disagreement: the last element is not copied. In particular the reduction of a single number (all calls in the code) leaves
the result as it was, whatever the number. -/
theorem C101_single_allreduce_fails {p q count : ℕ} (hc : 0 < count) (hb : Apart p count q count) (m : Mem T) :
    ∃ m', singleAllreduce p q count m = some m' ∧ singleAlltoall p count q m = some m' ∧
      m' (q + (count - 1)) = m (q + (count - 1)) := by
  have e : ¬ ((count : ℤ) - 1 < 0) := by omega
  have e' : ¬ (p ≤ q ∧ (q : ℤ) < p + ((count : ℤ) - 1)) := by
    unfold Apart at hb
    omega
  unfold singleAllreduce singleAlltoall stdCopy
  rw [if_neg e, if_neg e']
  exact ⟨_, rfl, rfl, blit_out (by omega)⟩

/-! ### The hypotheses are met -/

/-- Three ranks, two numbers each at addresses 10 and 20. -/
example : ∃ m', allreduce (n := 2) (fun _ => 10) (fun _ => 20) 2 opSUM (fun r a => (r : ℤ) * 100 + a) = some m' ∧
    m' 1 20 = 330 ∧ m' 2 21 = 333 := by
  obtain ⟨m', h1, h2⟩ := C101_allreduce (n := 2) (p := fun _ => 10) (q := fun _ => 20) (count := 2) (op := opSUM) (by decide)
    (by decide) (Or.inr fun _ => by decide) (fun r a => (r : ℤ) * 100 + a)
  refine ⟨m', h1, ?_, ?_⟩
  · have := (h2 1).1 0 (by decide)
    simp only [Reduces, opSUM, opMIN, opMAX, opLOR, opLAND] at this
    simpa [Fin.sum_univ_three] using this
  · have := (h2 2).1 1 (by decide)
    simp only [Reduces, opSUM, opMIN, opMAX, opLOR, opLAND] at this
    simpa [Fin.sum_univ_three] using this

/-- In place. -/
example : ∃ m', scan (n := 2) (fun _ => 10) (fun _ => 10) 1 opMAX (fun r _ => (r : ℤ)) = some m' ∧ (m' 1 10 = 1) ∧ m' 2 10 = 2 :=
  ⟨_, rfl, by decide, by decide⟩

/-- Counts 1, 0 and 2. -/
example : ∃ m', allgathervInPlace (n := 3) (fun r => 10 * r) ![1, 0, 2] (fun r a => 1000 * r.1 + a) = some m' ∧
    m' 0 0 = 0 ∧ m' 0 1 = 2021 ∧ m' 1 12 = 2022 :=
  ⟨_, rfl, by decide, by decide, by decide⟩

/-- Two ranks. -/
example : ∃ m', alltoallv (n := 2) (fun _ => 0) (fun _ => 10) ![![1, 2], ![0, 1]] ![![1, 0], ![2, 1]] (fun r a => 100 * r.1 + a) =
    some m' ∧ m' 0 10 = 0 ∧ m' 1 10 = 1 ∧ m' 1 11 = 2 ∧ m' 1 12 = 100 :=
  ⟨_, rfl, by decide, by decide, by decide, by decide⟩

/-- Two ranks with two elements for each. -/
example : ∀ r : Fin 2, Apart ((fun _ : Fin 2 => 0) r) (2 * 2) ((fun _ : Fin 2 => 10) r) (2 * 2) := by decide

/-- Too many elements. -/
example : alltoallv (n := 1) (fun _ => 0) (fun _ => 2 ^ 32) (fun _ _ => 2 ^ 31) (fun _ _ => 2 ^ 31) (fun _ _ => (0 : ℤ)) = none :=
  C101_large_fails (r := 0) (by simp) _

/-- Without MPI the sum of one number is not written. -/
example : ∃ m', singleAllreduce 0 1 1 (fun a => if a = 0 then 7 else (-1 : ℤ)) = some m' ∧ m' 1 = -1 := ⟨_, rfl, by decide⟩

end

end Verif.Comm.Collectives
