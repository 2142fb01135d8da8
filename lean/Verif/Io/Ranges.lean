import Mathlib.Data.List.Basic
import Mathlib.Data.List.Range
import Mathlib.Data.List.Perm.Basic
import Mathlib.Algebra.BigOperators.Group.List.Basic
import Mathlib.Tactic.Ring

/-!
# C36, C39: ranges of a shared dataset that ranks write and read

Models of `core/src/utils/io/HDF5ViewWriter.h` (`collective_write`), of `read_view` and of the
distribution of particles in `core/src/init/InitialConditions_restart.cpp`.

Rank `r` is the index `r` of a list. Only the last extent of a view differs between ranks and only this
index is offset in the file, so a view is the list of its slices at the values of the last index.
-/

namespace Verif.Io

variable {α : Type}

/-! ### Model -/

/-- `MPI_Allreduce` of `uint64_t` with `SUM` (`HDF5ViewWriter.h` L102). -/
def allreduceSum (n : List ℕ) : ℕ := n.sum % 2 ^ 64

/-- `MPI_Scan` of `uint64_t` with `SUM` on rank `r` (L104): sum over the ranks up to and including `r`. -/
def scanSum (n : List ℕ) (r : ℕ) : ℕ := (n.take (r + 1)).sum % 2 ^ 64

/-- L103-105: `first_global_index`, unsigned subtraction. `n.getD r 0` is the local extent; `r` is a
rank. -/
def firstIndex (n : List ℕ) (r : ℕ) : ℕ := (scanSum n r + 2 ^ 64 - n.getD r 0) % 2 ^ 64

/-- L148, L186-192: write to the hyperslab that starts at `start`; an error (`none`) if it is not inside
the dataset. -/
def writeSlab (ds : List (Option α)) (start : ℕ) (data : List α) : Option (List (Option α)) :=
  if start + data.length ≤ ds.length then
    some (ds.take start ++ data.map some ++ ds.drop (start + data.length))
  else none

/-- L97-108 and L119-203 on all ranks, which write in the order `order`. Elements that are not written
are `none`. -/
def collectiveWrite (parts : List (List α)) (order : List ℕ) : Option (List (Option α)) :=
  order.foldlM
    (fun ds r => writeSlab ds (firstIndex (parts.map List.length) r) (parts.getD r []))
    (List.replicate (allreduceSum (parts.map List.length)) none)

/-- `InitialConditions_restart.cpp` L132-163: rank `r` reads its hyperslab. `n` are the local extents.
An error (`none`) if the extents do not add up to the extent of the dataset. Sums are `int64_t`. -/
def readView (file : List α) (n : List ℕ) (r : ℕ) : Option (List α) :=
  if allreduceSum n = file.length then
    some ((file.drop (firstIndex n r)).take (n.getD r 0))
  else none

/-- `InitialConditions_restart.cpp` L309-312: `uint32_t` arithmetic (`int` operands are converted). -/
def particlesLocal (fileCount nbProc rank : ℕ) : ℕ :=
  let n := fileCount % 2 ^ 32
  ((n * (rank + 1) % 2 ^ 32) / nbProc + 2 ^ 32 - (n * rank % 2 ^ 32) / nbProc) % 2 ^ 32

/-! ### Specification -/

/-- First index of rank `r` when the ranks have `n` elements each, one after the other. -/
def before (n : List ℕ) (r : ℕ) : ℕ := (n.take r).sum

/-! ### Lemmas -/

theorem before_succ (n : List ℕ) {r : ℕ} (hr : r < n.length) :
    before n (r + 1) = before n r + n.getD r 0 := by
  unfold before
  rw [List.take_add_one, List.sum_append, List.getElem?_eq_getElem hr]
  simp [List.getD, List.getElem?_eq_getElem hr]

theorem before_le (n : List ℕ) (r : ℕ) : before n r ≤ n.sum := by
  unfold before
  conv_rhs => rw [← List.take_append_drop r n, List.sum_append]
  omega

theorem before_mono (n : List ℕ) {r s : ℕ} (h : r ≤ s) : before n r ≤ before n s := by
  have h1 := before_le (n.take s) r
  unfold before at h1 ⊢
  rw [List.take_take, Nat.min_eq_left h] at h1
  exact h1

theorem before_end (n : List ℕ) : before n n.length = n.sum := by
  unfold before; rw [List.take_length]

theorem firstIndex_eq (n : List ℕ) {r : ℕ} (hr : r < n.length) (hn : n.sum < 2 ^ 64) :
    firstIndex n r = before n r := by
  have h1 := before_succ n hr
  have h2 := before_le n (r + 1)
  have h3 : scanSum n r = before n (r + 1) := by
    unfold scanSum
    exact Nat.mod_eq_of_lt (lt_of_le_of_lt h2 hn)
  unfold firstIndex
  rw [h3]
  omega

theorem exists_rank (n : List ℕ) {i : ℕ} (h : i < n.sum) :
    ∃ r < n.length, before n r ≤ i ∧ i < before n r + n.getD r 0 := by
  induction n generalizing i with
  | nil => simp at h
  | cons a n ih =>
    by_cases hi : i < a
    · exact ⟨0, by simp, by simp [before], by simpa [before] using hi⟩
    · rw [List.sum_cons] at h
      obtain ⟨r, hr, h1, h2⟩ := ih (i := i - a) (by omega)
      refine ⟨r + 1, by simpa using hr, ?_, ?_⟩
      · simp only [before, List.take_succ_cons, List.sum_cons] at h1 ⊢; omega
      · simp only [before, List.take_succ_cons, List.sum_cons, List.getD_cons_succ] at h2 ⊢; omega

theorem flatten_slice (parts : List (List α)) {r : ℕ} (hr : r < parts.length) :
    (parts.flatten.drop (before (parts.map List.length) r)).take
      ((parts.map List.length).getD r 0) = parts.getD r [] := by
  induction parts generalizing r with
  | nil => simp at hr
  | cons p parts ih =>
    cases r with
    | zero => simp [before]
    | succ r =>
      have := ih (r := r) (by simpa using hr)
      simp only [before, List.map_cons, List.take_succ_cons, List.sum_cons, List.getD_cons_succ,
        List.flatten_cons] at this ⊢
      rw [List.drop_append, List.drop_eq_nil_of_le (by omega), List.nil_append,
        Nat.add_sub_cancel_left, this]

theorem flatten_get (parts : List (List α)) {r j : ℕ} (hr : r < parts.length)
    (hj : j < (parts.map List.length).getD r 0) :
    parts.flatten[before (parts.map List.length) r + j]? = (parts.getD r [])[j]? := by
  rw [← flatten_slice parts hr, List.getElem?_take, if_pos hj, List.getElem?_drop]

theorem getD_length (parts : List (List α)) {r : ℕ} (hr : r < parts.length) :
    (parts.map List.length).getD r 0 = (parts.getD r []).length := by
  simp [List.getD, hr]

theorem flatten_size (parts : List (List α)) :
    parts.flatten.length = (parts.map List.length).sum := List.length_flatten

/-! ### Properties -/

/-- The range of a rank starts where the range of the previous one ends; the first one starts at the
beginning of the dataset and the last one ends at its end. Ranges of different ranks are disjoint and
every index of the dataset is in one of them. -/
theorem C36_ranges_partition (n : List ℕ) (hn : n.sum < 2 ^ 64) :
    (0 < n.length → firstIndex n 0 = 0) ∧
    (∀ r, r + 1 < n.length → firstIndex n (r + 1) = firstIndex n r + n.getD r 0) ∧
    (∀ r, r + 1 = n.length → firstIndex n r + n.getD r 0 = allreduceSum n) ∧
    (∀ r s, r < s → s < n.length → firstIndex n r + n.getD r 0 ≤ firstIndex n s) ∧
    ∀ i < allreduceSum n, ∃ r < n.length, firstIndex n r ≤ i ∧ i < firstIndex n r + n.getD r 0 := by
  have e : allreduceSum n = n.sum := Nat.mod_eq_of_lt hn
  refine ⟨fun h => ?_, fun r h => ?_, fun r h => ?_, fun r s h h' => ?_, fun i hi => ?_⟩
  · rw [firstIndex_eq n h hn]; simp [before]
  · rw [firstIndex_eq n h hn, firstIndex_eq n (by omega) hn, before_succ n (by omega)]
  · rw [firstIndex_eq n (by omega) hn, ← before_succ n (by omega), h, before_end, e]
  · rw [firstIndex_eq n h' hn, firstIndex_eq n (by omega) hn, ← before_succ n (by omega)]
    exact before_mono n h
  · rw [e] at hi
    obtain ⟨r, hr, h1, h2⟩ := exists_rank n hi
    exact ⟨r, hr, by rw [firstIndex_eq n hr hn]; exact ⟨h1, h2⟩⟩

theorem write_step (parts : List (List α)) (hn : (parts.map List.length).sum < 2 ^ 64)
    (ds : List (Option α)) (hl : ds.length = parts.flatten.length) {r : ℕ} (hr : r < parts.length) :
    ∃ ds', writeSlab ds (firstIndex (parts.map List.length) r) (parts.getD r []) = some ds' ∧
      ds'.length = parts.flatten.length ∧
      ∀ i : ℕ, ds'[i]? = if before (parts.map List.length) r ≤ i ∧
        i < before (parts.map List.length) (r + 1) then (parts.flatten.map some)[i]? else ds[i]? := by
  have hr' : r < (parts.map List.length).length := by simpa using hr
  have e1 := firstIndex_eq _ hr' hn
  have e2 := getD_length parts hr
  have e3 := before_succ _ hr'
  have e4 := before_le (parts.map List.length) (r + 1)
  have e5 := flatten_size parts
  unfold writeSlab
  rw [e1, if_pos (by omega)]
  refine ⟨_, rfl, ?_, ?_⟩
  · simp only [List.length_append, List.length_take, List.length_map, List.length_drop]; omega
  · intro i
    have lt : (ds.take (before (parts.map List.length) r)).length =
        before (parts.map List.length) r := by rw [List.length_take]; omega
    rcases lt_trichotomy i (before (parts.map List.length) r) with h | h | h
    · rw [if_neg (by omega), List.append_assoc, List.getElem?_append_left (by omega),
        List.getElem?_take, if_pos h]
    all_goals
      by_cases h2 : i < before (parts.map List.length) (r + 1)
      · rw [if_pos ⟨by omega, h2⟩, List.append_assoc, List.getElem?_append_right (by omega), lt,
          List.getElem?_append_left (by simp only [List.length_map]; omega), List.getElem?_map,
          List.getElem?_map]
        congr 1
        have := flatten_get parts hr (j := i - before (parts.map List.length) r) (by omega)
        rw [← this]; congr 1; omega
      · rw [if_neg (by omega), List.getElem?_append_right (by
          simp only [List.length_append, lt, List.length_map]; omega), List.getElem?_drop]
        simp only [List.length_append, lt, List.length_map]
        congr 1; omega

/-- Whatever the order in which the ranks write, the dataset is the concatenation of their data in rank
order, completely written. -/
theorem C36_collective_write (parts : List (List α)) (hn : (parts.map List.length).sum < 2 ^ 64)
    (order : List ℕ) (ho : order.Perm (List.range parts.length)) :
    collectiveWrite parts order = some (parts.flatten.map some) := by
  have key : ∀ (l : List ℕ) (ds : List (Option α)), (∀ r ∈ l, r < parts.length) →
      ds.length = parts.flatten.length →
      ∃ ds', l.foldlM (fun ds r => writeSlab ds (firstIndex (parts.map List.length) r)
          (parts.getD r [])) ds = some ds' ∧ ds'.length = parts.flatten.length ∧
        ∀ i : ℕ, ((∃ r ∈ l, before (parts.map List.length) r ≤ i ∧
            i < before (parts.map List.length) (r + 1)) ∨
            ds[i]? = (parts.flatten.map some)[i]?) → ds'[i]? = (parts.flatten.map some)[i]? := by
    intro l
    induction l with
    | nil =>
      intro ds _ hl
      refine ⟨ds, rfl, hl, fun i hi => ?_⟩
      rcases hi with ⟨r, hr, -⟩ | hi
      · simp at hr
      · exact hi
    | cons r l ih =>
      intro ds hr hl
      obtain ⟨ds1, e1, l1, g1⟩ := write_step parts hn ds hl (hr r (by simp))
      obtain ⟨ds2, e2, l2, g2⟩ := ih ds1 (fun q hq => hr q (by simp [hq])) l1
      refine ⟨ds2, ?_, l2, fun i hi => ?_⟩
      · rw [List.foldlM_cons, e1]; exact e2
      · apply g2
        rcases hi with ⟨q, hq, h⟩ | h
        · rcases List.mem_cons.mp hq with rfl | hq
          · exact Or.inr (by rw [g1, if_pos h])
          · exact Or.inl ⟨q, hq, h⟩
        · refine Or.inr ?_
          rw [g1]
          split
          · rfl
          · exact h
  have e : allreduceSum (parts.map List.length) = parts.flatten.length := by
    rw [flatten_size]; exact Nat.mod_eq_of_lt hn
  obtain ⟨ds', e1, l1, g1⟩ := key order (List.replicate (allreduceSum (parts.map List.length)) none)
    (fun r hr => by simpa using ho.mem_iff.mp hr) (by rw [List.length_replicate, e])
  unfold collectiveWrite
  rw [e1]
  congr 1
  apply List.ext_getElem?
  intro i
  by_cases hi : i < parts.flatten.length
  · apply g1
    refine Or.inl ?_
    rw [flatten_size] at hi
    obtain ⟨r, hr, h1, h2⟩ := exists_rank _ hi
    refine ⟨r, ho.mem_iff.mpr (by simpa using hr), h1, ?_⟩
    rw [before_succ _ hr]; exact h2
  · rw [List.getElem?_eq_none (by omega), List.getElem?_eq_none (by rw [List.length_map]; omega)]

/-- Reading with extents that add up to the extent of the dataset: the parts read are the consecutive
parts of the dataset of these lengths. -/
theorem C36_read (file : List α) (parts : List (List α)) (hf : parts.flatten = file)
    (hn : file.length < 2 ^ 63) {r : ℕ} (hr : r < parts.length) :
    readView file (parts.map List.length) r = some (parts.getD r []) := by
  have h : (parts.map List.length).sum = file.length := by rw [← hf, flatten_size]
  unfold readView
  rw [if_pos (by unfold allreduceSum; rw [h]; exact Nat.mod_eq_of_lt (by omega)),
    firstIndex_eq _ (by simpa using hr) (by omega), ← hf, flatten_slice parts hr]

/-- Cut a list into consecutive parts of given lengths. -/
def cut : List ℕ → List α → List (List α)
  | [], _ => []
  | k :: n, l => l.take k :: cut n (l.drop k)

theorem cut_length (n : List ℕ) (l : List α) : (cut n l).length = n.length := by
  induction n generalizing l with
  | nil => rfl
  | cons k n ih => simp [cut, ih]

theorem cut_spec (n : List ℕ) (l : List α) (h : n.sum = l.length) :
    (cut n l).flatten = l ∧ (cut n l).map List.length = n := by
  induction n generalizing l with
  | nil =>
    have : l = [] := List.eq_nil_of_length_eq_zero (by simpa using h.symm)
    subst this; exact ⟨rfl, rfl⟩
  | cons k n ih =>
    rw [List.sum_cons] at h
    obtain ⟨h1, h2⟩ := ih (l.drop k) (by rw [List.length_drop]; omega)
    simp only [cut, List.flatten_cons, List.map_cons, h1, h2, List.take_append_drop,
      List.length_take]
    exact ⟨trivial, by rw [Nat.min_eq_left (by omega)]⟩

/-- A different number of ranks may read the dataset: every element is read by exactly one rank, in
order. -/
theorem C36_read_any_extents (file : List α) (n : List ℕ) (h : n.sum = file.length)
    (hn : file.length < 2 ^ 63) :
    ∃ parts : List (List α), parts.length = n.length ∧ parts.flatten = file ∧
      ∀ r < n.length, (parts.getD r []).length = n.getD r 0 ∧
        readView file n r = some (parts.getD r []) := by
  obtain ⟨h1, h2⟩ := cut_spec n file h
  refine ⟨cut n file, cut_length n file, h1, fun r hr => ?_⟩
  have hr' : r < (cut n file).length := by rw [cut_length]; exact hr
  have h3 := C36_read file (cut n file) h1 hn hr'
  rw [h2] at h3
  refine ⟨?_, h3⟩
  have := getD_length (cut n file) hr'
  rw [h2] at this
  exact this.symm

/-- Written and read with the same extents: every rank gets its own data back. -/
theorem C36_write_then_read (parts : List (List α)) (hn : (parts.map List.length).sum < 2 ^ 63)
    (order : List ℕ) (ho : order.Perm (List.range parts.length)) :
    ∃ file : List α, collectiveWrite parts order = some (file.map some) ∧
      ∀ r < parts.length, readView file (parts.map List.length) r = some (parts.getD r []) :=
  ⟨parts.flatten, C36_collective_write parts (by omega) order ho, fun _ hr =>
    C36_read _ parts rfl (by rw [flatten_size]; exact hn) hr⟩

/-! ### Particles at restart -/

theorem share_sum (n P : ℕ) (hP : 0 < P) :
    ((List.range P).map fun r => n * (r + 1) / P - n * r / P).sum = n := by
  have : ∀ k, ((List.range k).map fun r => n * (r + 1) / P - n * r / P).sum = n * k / P := by
    intro k
    induction k with
    | zero => simp
    | succ k ih =>
      rw [List.range_succ, List.map_append, List.sum_append, ih]
      have : n * k / P ≤ n * (k + 1) / P := Nat.div_le_div_right (Nat.mul_le_mul_left _ (by omega))
      simp only [List.map_cons, List.map_nil, List.sum_cons, List.sum_nil]
      omega
  rw [this, Nat.mul_div_cancel _ hP]

/-- As long as the number of particles times the number of ranks fits in 32 bits, the particles read by
the ranks are consecutive parts of the file that cover it, and the parts differ by at most one in
size. Missing for the full statement: larger products, see `C39_overflow_fails`. -/
theorem C39_particles_split_partial (file : List α) (P : ℕ) (hP : 0 < P)
    (hn : file.length * P < 2 ^ 32) :
    ∃ parts : List (List α), parts.length = P ∧ parts.flatten = file ∧
      ∀ r < P, readView file ((List.range P).map (particlesLocal file.length P)) r =
          some (parts.getD r []) ∧
        (parts.getD r []).length ≤ file.length / P + 1 ∧ file.length / P ≤ (parts.getD r []).length := by
  have hsmall : file.length < 2 ^ 32 := lt_of_le_of_lt (Nat.le_mul_of_pos_right _ hP) hn
  have hl : (List.range P).map (particlesLocal file.length P) =
      (List.range P).map fun r => file.length * (r + 1) / P - file.length * r / P := by
    apply List.map_congr_left
    intro r hr
    have hr : r < P := by simpa using hr
    unfold particlesLocal
    have h1 : file.length * (r + 1) ≤ file.length * P := Nat.mul_le_mul_left _ hr
    have h2 : file.length * r ≤ file.length * (r + 1) := Nat.mul_le_mul_left _ (by omega)
    have h3 : file.length * r / P ≤ file.length * (r + 1) / P := Nat.div_le_div_right h2
    have h4 : file.length * (r + 1) / P ≤ file.length * (r + 1) := Nat.div_le_self _ _
    simp only [Nat.mod_eq_of_lt hsmall]
    rw [Nat.mod_eq_of_lt (show file.length * (r + 1) < 2 ^ 32 by omega),
      Nat.mod_eq_of_lt (show file.length * r < 2 ^ 32 by omega)]
    generalize file.length * (r + 1) / P = x at *
    generalize file.length * r / P = y at *
    omega
  rw [hl]
  obtain ⟨parts, hlen, hfl, h⟩ := C36_read_any_extents file
    ((List.range P).map fun r => file.length * (r + 1) / P - file.length * r / P)
    (share_sum _ _ hP) (by omega)
  rw [List.length_map, List.length_range] at hlen h
  refine ⟨parts, hlen, hfl, fun r hr => ?_⟩
  obtain ⟨h1, h2⟩ := h r hr
  refine ⟨h2, ?_⟩
  rw [h1]
  have e : ((List.range P).map fun r => file.length * (r + 1) / P - file.length * r / P).getD r 0 =
      file.length * (r + 1) / P - file.length * r / P := by
    simp [List.getD, hr]
  rw [e]
  have a1 := Nat.div_add_mod (file.length * r) P
  have a2 := Nat.mod_lt (file.length * r) hP
  have b1 := Nat.div_add_mod (file.length) P
  have b2 := Nat.mod_lt (file.length) hP
  have c : file.length * (r + 1) = P * (file.length * r / P + file.length / P) +
      (file.length * r % P + file.length % P) := by
    rw [Nat.mul_add, Nat.mul_one, Nat.mul_add]; omega
  have c2 : file.length * (r + 1) / P = file.length * r / P + file.length / P +
      (file.length * r % P + file.length % P) / P := by
    rw [c, Nat.add_comm, Nat.add_mul_div_left _ _ hP]; omega
  have c3 : (file.length * r % P + file.length % P) / P ≤ 1 := by
    rw [← Nat.lt_succ_iff, Nat.div_lt_iff_lt_mul hP]; omega
  rw [c2]
  generalize (file.length * r % P + file.length % P) / P = x at *
  generalize file.length * r / P = y at *
  generalize file.length / P = z at *
  omega

/-- `256^3` particles on 256 ranks: the last rank is given `4278255616` particles, and the numbers do
not add up to the number of particles. -/
theorem C39_overflow_fails :
    particlesLocal (256 ^ 3) 256 255 = 4278255616 ∧
    ((List.range 256).map (particlesLocal (256 ^ 3) 256)).sum ≠ 256 ^ 3 := by decide +kernel

/-! ### Examples -/

/-- Three ranks, the second has nothing, writing in the order 2, 0, 1. -/
example : collectiveWrite [[1, 2], [], [3]] [2, 0, 1] = some [some 1, some 2, some 3] :=
  C36_collective_write [[1, 2], [], [3]] (by decide) [2, 0, 1] (by decide)

example : firstIndex [2, 0, 1] 2 = 2 ∧ allreduceSum [2, 0, 1] = 3 := by decide

/-- Two ranks read what three ranks wrote. -/
example : readView [1, 2, 3] [1, 2] 1 = some [2, 3] := C36_read [1, 2, 3] [[1], [2, 3]] rfl (by decide)
  (by decide)

/-- Five particles on three ranks. -/
example : (List.range 3).map (particlesLocal 5 3) = [1, 2, 2] := by decide

end Verif.Io
