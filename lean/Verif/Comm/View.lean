import Verif.Comm.Model
import Verif.Comm.Spec
import Mathlib.Tactic.Ring
import Mathlib.Tactic.Linarith

/-!
# Index arithmetic of views, prefix sums and writes
-/

namespace Verif.Comm

/-! ### Indices -/

/-- Inverse of `getUIdx`: the element number of a multi-index. -/
def eltOf (pos : ℕ) : List ℕ → List ℕ → ℕ → ℕ
  | n :: ext, i :: idx, k =>
    if k = pos then eltOf pos ext idx (k + 1) else i + n * eltOf pos ext idx (k + 1)
  | _, _, _ => 0

def InFrom (pos k : ℕ) (shape idx : List ℕ) : Prop :=
  idx.length = shape.length ∧
    ∀ j n i, k + j ≠ pos → shape[j]? = some n → idx[j]? = some i → i < n

theorem inShape_iff (pos : ℕ) (shape idx : List ℕ) : InShape pos shape idx ↔ InFrom pos 0 shape idx := by
  unfold InShape InFrom
  simp

theorem InFrom.tail {pos k n i : ℕ} {shape idx : List ℕ} (h : InFrom pos k (n :: shape) (i :: idx)) :
    InFrom pos (k + 1) shape idx := by
  refine ⟨by simpa using h.1, ?_⟩
  intro j m x hj h1 h2
  exact h.2 (j + 1) m x (by omega) (by simpa using h1) (by simpa using h2)

theorem getUIdx_length (pos o : ℕ) (ext : List ℕ) : ∀ k elt, (getUIdx pos o ext k elt).length = ext.length := by
  induction ext with
  | nil => intros; rfl
  | cons n ext ih =>
    intro k elt
    unfold getUIdx
    split <;> simp [ih]

theorem eltOf_getUIdx (pos o : ℕ) (ext : List ℕ) : ∀ k elt, elt < eltsFrom pos ext k →
    eltOf pos ext (getUIdx pos o ext k elt) k = elt := by
  induction ext with
  | nil => intro k elt h; simp [eltsFrom] at h; simp [eltOf, h]
  | cons n ext ih =>
    intro k elt h
    unfold eltsFrom at h
    unfold getUIdx
    split
    · rename_i hk
      rw [if_pos hk, Nat.one_mul] at h
      rw [eltOf, if_pos hk]
      exact ih _ _ h
    · rename_i hk
      rw [if_neg hk] at h
      rw [eltOf, if_neg hk, ih _ _ (Nat.div_lt_of_lt_mul h)]
      exact Nat.mod_add_div elt n

theorem eltOf_lt (pos : ℕ) (ext : List ℕ) : ∀ k idx, InFrom pos k ext idx →
    eltOf pos ext idx k < eltsFrom pos ext k := by
  induction ext with
  | nil => intro k idx h; simp [eltOf, eltsFrom]
  | cons n ext ih =>
    intro k idx h
    cases idx with
    | nil => exact absurd h.1 (by simp)
    | cons i idx =>
      have h1 := ih (k + 1) idx h.tail
      unfold eltOf eltsFrom
      split
      · rwa [Nat.one_mul]
      · rename_i hk
        have h2 : i < n := h.2 0 n i (by simpa using hk) (by simp) (by simp)
        calc i + n * eltOf pos ext idx (k + 1) < n + n * eltOf pos ext idx (k + 1) := by omega
          _ = n * (eltOf pos ext idx (k + 1) + 1) := by ring
          _ ≤ n * eltsFrom pos ext (k + 1) := Nat.mul_le_mul_left _ h1

theorem getUIdx_eltOf (pos o : ℕ) (ext : List ℕ) : ∀ k idx, InFrom pos k ext idx →
    getUIdx pos o ext k (eltOf pos ext idx k) = if k ≤ pos then idx.set (pos - k) o else idx := by
  induction ext with
  | nil =>
    intro k idx h
    have : idx = [] := by simpa using h.1
    subst this
    simp [getUIdx]
  | cons n ext ih =>
    intro k idx h
    cases idx with
    | nil => exact absurd h.1 (by simp)
    | cons i idx =>
      have h1 := ih (k + 1) idx h.tail
      unfold eltOf getUIdx
      split
      · rename_i hk
        rw [h1, if_neg (by omega), if_pos (by omega), hk, Nat.sub_self]
        rfl
      · rename_i hk
        have h2 : i < n := h.2 0 n i (by simpa using hk) (by simp) (by simp)
        have h3 : (i + n * eltOf pos ext idx (k + 1)) % n = i := by
          rw [Nat.add_mul_mod_self_left, Nat.mod_eq_of_lt h2]
        have h4 : (i + n * eltOf pos ext idx (k + 1)) / n = eltOf pos ext idx (k + 1) := by
          rw [Nat.add_mul_div_left _ _ (by omega), Nat.div_eq_of_lt h2, Nat.zero_add]
        rw [h3, h4, h1]
        by_cases hle : k ≤ pos
        · rw [if_pos (by omega), if_pos hle, show pos - k = (pos - (k + 1)) + 1 by omega]
          rfl
        · rw [if_neg (by omega), if_neg hle]

theorem getUIdx_inFrom (pos o : ℕ) (ext : List ℕ) : ∀ k elt, elt < eltsFrom pos ext k →
    InFrom pos k ext (getUIdx pos o ext k elt) := by
  induction ext with
  | nil => intro k elt _; exact ⟨rfl, by simp [getUIdx]⟩
  | cons n ext ih =>
    intro k elt h
    refine ⟨getUIdx_length _ _ _ _ _, ?_⟩
    unfold eltsFrom at h
    intro j m x hj h1 h2
    unfold getUIdx at h2
    split at h2
    · rename_i hk
      rw [if_pos hk, Nat.one_mul] at h
      cases j with
      | zero => exact absurd hk (by simpa using hj)
      | succ j => exact (ih (k + 1) elt h).2 j m x (by omega) (by simpa using h1) (by simpa using h2)
    · rename_i hk
      rw [if_neg hk] at h
      cases j with
      | zero =>
        simp only [List.getElem?_cons_zero, Option.some.injEq] at h1 h2
        subst h1 h2
        apply Nat.mod_lt
        by_contra hc
        have : n = 0 := by omega
        subst this
        simp at h
      | succ j =>
        exact (ih (k + 1) (elt / n) (Nat.div_lt_of_lt_mul h)).2 j m x (by omega) (by simpa using h1)
          (by simpa using h2)

theorem getUIdx_pos (pos o : ℕ) (ext : List ℕ) : ∀ k elt, k ≤ pos → pos - k < ext.length →
    (getUIdx pos o ext k elt)[pos - k]? = some o := by
  induction ext with
  | nil => intro k elt _ h; simp at h
  | cons n ext ih =>
    intro k elt hk h
    unfold getUIdx
    split
    · rename_i hkp
      subst hkp
      simp
    · rename_i hkp
      rw [show pos - k = (pos - (k + 1)) + 1 by omega, List.getElem?_cons_succ]
      apply ih
      · omega
      · simp at h; omega

/-- Distinct (octant, element) pairs have distinct multi-indices. -/
theorem getUIdx_inj {pos o o' elt elt' : ℕ} {shape : List ℕ} (hpos : pos < shape.length)
    (h1 : elt < eltsFrom pos shape 0) (h2 : elt' < eltsFrom pos shape 0)
    (h : getUIdx pos o shape 0 elt = getUIdx pos o' shape 0 elt') : o = o' ∧ elt = elt' := by
  constructor
  · have e1 := getUIdx_pos pos o shape 0 elt (Nat.zero_le _) (by simpa using hpos)
    have e2 := getUIdx_pos pos o' shape 0 elt' (Nat.zero_le _) (by simpa using hpos)
    rw [h, e2] at e1
    simpa using e1.symm
  · rw [← eltOf_getUIdx pos o shape 0 elt h1, h, eltOf_getUIdx pos o' shape 0 elt' h2]

/-- Every multi-index comes from an element number, for any octant in the distributed dimension. -/
theorem exists_elt {pos : ℕ} {shape idx : List ℕ} (h : InShape pos shape idx) :
    ∃ elt < eltsFrom pos shape 0, ∀ o, getUIdx pos o shape 0 elt = idx.set pos o := by
  rw [inShape_iff] at h
  refine ⟨_, eltOf_lt pos shape 0 idx h, fun o => ?_⟩
  rw [getUIdx_eltOf pos o shape 0 idx h]
  simp

theorem eltsFrom_past (pos : ℕ) (ext : List ℕ) : ∀ k, pos < k → eltsFrom pos ext k = ext.prod := by
  induction ext with
  | nil => intros; rfl
  | cons n ext ih =>
    intro k hk
    rw [eltsFrom, if_neg (by omega), ih _ (by omega), List.prod_cons]

theorem eltsFrom_erase (pos : ℕ) (ext : List ℕ) : ∀ k, k ≤ pos → pos - k < ext.length →
    eltsFrom pos ext k = (ext.eraseIdx (pos - k)).prod := by
  induction ext with
  | nil => intro k _ h; simp at h
  | cons n ext ih =>
    intro k hk h
    rw [eltsFrom]
    split
    · rename_i hkp
      rw [hkp, Nat.sub_self, eltsFrom_past _ _ _ (by omega)]
      simp
    · rename_i hkp
      have h3 : pos - k = (pos - (k + 1)) + 1 := by omega
      rw [ih (k + 1) (by omega) (by simp at h; omega), h3]
      simp

theorem linLeft_last (q : List ℕ) (c o : ℕ) : ∀ k elt, elt < q.prod →
    linLeft (q ++ [c]) (getUIdx (k + q.length) o (q ++ [c]) k elt) = elt + q.prod * o := by
  induction q with
  | nil =>
    intro k elt h
    simp at h
    simp [getUIdx, linLeft, h]
  | cons n q ih =>
    intro k elt h
    rw [List.prod_cons] at h
    have h1 := ih (k + 1) (elt / n) (Nat.div_lt_of_lt_mul h)
    rw [List.cons_append, getUIdx, if_neg (by simp), linLeft]
    rw [show k + (n :: q).length = k + 1 + q.length by simp; omega, h1, List.prod_cons]
    have := Nat.mod_add_div elt n
    generalize elt / n = x at *
    rw [Nat.mul_add]
    rw [← Nat.mul_assoc]
    omega

/-- Buffers with the distributed dimension on the right hold element `elt` of octant `o` at
address `elt + elts * o`. -/
theorem linLeft_pack {pos : ℕ} {shape : List ℕ} (hpos : pos < shape.length) (c o : ℕ) {elt : ℕ}
    (h : elt < eltsFrom pos shape 0) :
    linLeft (packShape pos shape c) (getUIdx (shape.length - 1) o (packShape pos shape c) 0 elt) =
      elt + eltsFrom pos shape 0 * o := by
  have h1 := eltsFrom_erase pos shape 0 (Nat.zero_le _) (by simpa using hpos)
  rw [Nat.sub_zero] at h1
  rw [h1] at h ⊢
  have h2 := linLeft_last (shape.eraseIdx pos) c o 0 elt h
  rw [Nat.zero_add, List.length_eraseIdx_of_lt hpos] at h2
  exact h2

/-- The same for a view whose distributed dimension is the last one. -/
theorem linLeft_right {shape : List ℕ} (hs : shape ≠ []) (o : ℕ) {elt : ℕ}
    (h : elt < eltsFrom (shape.length - 1) shape 0) :
    linLeft shape (getUIdx (shape.length - 1) o shape 0 elt) =
      elt + eltsFrom (shape.length - 1) shape 0 * o := by
  obtain ⟨q, c, rfl⟩ : ∃ q c, shape = q ++ [c] :=
    ⟨shape.dropLast, shape.getLast hs, (List.dropLast_append_getLast hs).symm⟩
  have h1 := eltsFrom_erase ((q ++ [c]).length - 1) (q ++ [c]) 0 (Nat.zero_le _) (by simp)
  have h2 : (q ++ [c]).eraseIdx ((q ++ [c]).length - 1 - 0) = q := by
    simp [List.eraseIdx_append_of_length_le]
  rw [h2] at h1
  rw [h1] at h ⊢
  have h3 := linLeft_last q c o 0 elt h
  simpa using h3

/-! ### Prefix sums -/

theorem psum_mono (f : ℕ → ℕ) {a b : ℕ} (h : a ≤ b) : psum f a ≤ psum f b := by
  induction b with
  | zero => have : a = 0 := by omega
            subst this; exact le_refl _
  | succ b ih =>
    rcases Nat.lt_or_ge a (b + 1) with h1 | h1
    · have := ih (by omega)
      rw [psum]; omega
    · have : a = b + 1 := by omega
      subst this; exact le_refl _

theorem psum_congr {f g : ℕ → ℕ} {n : ℕ} (h : ∀ i < n, f i = g i) : psum f n = psum g n := by
  induction n with
  | zero => rfl
  | succ n ih => rw [psum, psum, ih (fun i hi => h i (by omega)), h n (by omega)]

theorem subOffset_none (f : ℕ → ℕ) (r : ℕ) : subOffset f none r = psum f r := by
  induction r with
  | zero => rfl
  | succ r ih => rw [subOffset, psum, ih, if_neg (by simp)]

theorem subOffset_le (f : ℕ → ℕ) {s r : ℕ} (h : r ≤ s) : subOffset f (some s) r = psum f r := by
  induction r with
  | zero => rfl
  | succ r ih => rw [subOffset, psum, ih (by omega), if_neg (by simp; omega)]

theorem subOffset_gt (f : ℕ → ℕ) {s r : ℕ} (h : s < r) : subOffset f (some s) r + f s = psum f r := by
  induction r with
  | zero => omega
  | succ r ih =>
    rcases Nat.lt_or_ge s r with h1 | h1
    · rw [subOffset, psum, ← ih h1, if_neg (by simp; omega)]; omega
    · have : s = r := by omega
      subst this
      rw [subOffset, psum, if_pos rfl, subOffset_le f (le_refl _)]
      omega

theorem subOffset_mono (f : ℕ → ℕ) (skip : Option ℕ) {a b : ℕ} (h : a ≤ b) :
    subOffset f skip a ≤ subOffset f skip b := by
  induction b with
  | zero => have : a = 0 := by omega
            subst this; exact le_refl _
  | succ b ih =>
    rcases Nat.lt_or_ge a (b + 1) with h1 | h1
    · have := ih (by omega)
      rw [subOffset]; omega
    · have : a = b + 1 := by omega
      subst this; exact le_refl _

theorem subOffset_next (f : ℕ → ℕ) {skip : Option ℕ} {a b : ℕ} (h : a < b) (hs : some a ≠ skip) :
    subOffset f skip a + f a ≤ subOffset f skip b := by
  have h1 := subOffset_mono f skip (Nat.succ_le_of_lt h)
  rw [Nat.succ_eq_add_one, subOffset, if_neg hs] at h1
  exact h1

/-- A position of a buffer without the part of `skip` belongs to a rank. -/
theorem exists_part (f : ℕ → ℕ) (skip : Option ℕ) {P x : ℕ} (h : x < subOffset f skip P) :
    ∃ s < P, some s ≠ skip ∧ subOffset f skip s ≤ x ∧ x < subOffset f skip s + f s := by
  induction P with
  | zero => simp [subOffset] at h
  | succ P ih =>
    rcases Nat.lt_or_ge x (subOffset f skip P) with h1 | h1
    · obtain ⟨s, hs, h2⟩ := ih h1
      exact ⟨s, by omega, h2⟩
    · rw [subOffset] at h
      by_cases hP : some P = skip
      · rw [if_pos hP] at h; omega
      · rw [if_neg hP] at h
        exact ⟨P, by omega, hP, h1, h⟩

/-! ### Lists -/

theorem length_flatMap_range {β : Type} (f : ℕ → List β) (P : ℕ) :
    ((List.range P).flatMap f).length = psum (fun s => (f s).length) P := by
  induction P with
  | zero => rfl
  | succ P ih =>
    rw [List.range_succ, List.flatMap_append, List.length_append, ih, psum]
    simp

theorem getElem?_flatMap_range {β : Type} (f : ℕ → List β) {P s q : ℕ} (hs : s < P)
    (hq : q < (f s).length) :
    ((List.range P).flatMap f)[psum (fun s => (f s).length) s + q]? = (f s)[q]? := by
  induction P with
  | zero => omega
  | succ P ih =>
    rw [List.range_succ, List.flatMap_append]
    rcases Nat.lt_or_ge s P with h | h
    · have h1 : psum (fun s => (f s).length) s + q < psum (fun s => (f s).length) P := by
        have := psum_mono (fun s => (f s).length) (Nat.succ_le_of_lt h)
        rw [Nat.succ_eq_add_one, psum] at this
        omega
      rw [List.getElem?_append_left (by rw [length_flatMap_range]; exact h1)]
      exact ih h
    · have : s = P := by omega
      subst this
      rw [List.getElem?_append_right (by rw [length_flatMap_range]; omega), length_flatMap_range]
      simp

/-! ### Writes -/

theorem afterWrites_unique {A α : Type} [DecidableEq A] {ws : List (A × α)} {a : A} {v : α}
    (h1 : ∃ w ∈ ws, w.1 = a) (h2 : ∀ w ∈ ws, w.1 = a → w.2 = v) : afterWrites ws a = some v := by
  unfold afterWrites
  cases h : ws.reverse.find? (fun w => decide (w.1 = a)) with
  | none =>
    rw [List.find?_eq_none] at h
    obtain ⟨w, hw, hwa⟩ := h1
    exact absurd (h w (List.mem_reverse.2 hw)) (by simp [hwa])
  | some w =>
    have h3 := List.find?_some h
    have h4 := List.mem_of_find?_eq_some h
    rw [List.mem_reverse] at h4
    simp only [decide_eq_true_eq] at h3
    rw [Option.map_some, h2 w h4 h3]

theorem afterWrites_none {A α : Type} [DecidableEq A] {ws : List (A × α)} {a : A}
    (h : ∀ w ∈ ws, w.1 ≠ a) : afterWrites ws a = none := by
  unfold afterWrites
  rw [Option.map_eq_none_iff, List.find?_eq_none]
  intro w hw
  simpa using h w (List.mem_reverse.1 hw)

theorem findSome?_unique {β γ : Type} {l : List β} {f : β → Option γ} {x : β} {v : γ} (hx : x ∈ l)
    (h : f x = some v) (hu : ∀ y ∈ l, y ≠ x → f y = none) : l.findSome? f = some v := by
  induction l with
  | nil => simp at hx
  | cons y l ih =>
    by_cases hy : y = x
    · subst hy
      rw [List.findSome?_cons_of_isSome (by rw [h]; rfl), h]
    · rw [List.findSome?_cons_of_isNone (by rw [hu y (by simp) hy]; rfl)]
      apply ih
      · rcases List.mem_cons.1 hx with h1 | h1
        · exact absurd h1.symm hy
        · exact h1
      · intro z hz hne
        exact hu z (List.mem_cons_of_mem _ hz) hne

end Verif.Comm
