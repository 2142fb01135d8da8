import Verif.Partition.InitModel
import Verif.Partition.Balance
import Verif.Adapt.Apply
import Mathlib.Algebra.BigOperators.Group.Finset.Basic
import Mathlib.Data.Fintype.BigOperators
import Mathlib.Algebra.Order.BigOperators.Ring.Finset

/-!
# The initial mesh: lemmas
-/

namespace Verif.Partition

open Verif.Octree Verif.Morton Verif.Adapt

variable {d : ℕ}

theorem zkey_succ (d e n : ℕ) (p : Fin d → ℕ) :
    zkey d e (n + 1) p = 2 ^ e * zkey d e n (fun c => p c / 2) + digit p := rfl

theorem decode_lt (n m : ℕ) (c : Fin d) : decode d n m c < 2 ^ n := by
  induction n generalizing m with
  | zero => simp [decode]
  | succ n ih =>
    have := ih (m / 2 ^ d)
    show 2 * decode d n (m / 2 ^ d) c + m % 2 ^ d / 2 ^ (c : ℕ) % 2 < 2 ^ (n + 1)
    rw [pow_succ]
    omega

theorem zkey_decode (n : ℕ) {m : ℕ} (hm : m < 2 ^ (d * n)) : zkey d d n (decode d n m) = m := by
  induction n generalizing m with
  | zero =>
    simp at hm
    rw [hm]; rfl
  | succ n ih =>
    rw [zkey_succ]
    have h1 : (fun c => decode d (n + 1) m c / 2) = decode d n (m / 2 ^ d) := by
      funext c
      show (2 * decode d n (m / 2 ^ d) c + m % 2 ^ d / 2 ^ (c : ℕ) % 2) / 2 = _
      omega
    have h2 : m / 2 ^ d < 2 ^ (d * n) := by
      rw [Nat.div_lt_iff_lt_mul (by positivity), ← pow_add]
      rwa [Nat.mul_succ] at hm
    have h3 : digit (decode d (n + 1) m) = m % 2 ^ d := by
      have := digit_bits (fun c => decode d n (m / 2 ^ d) c) (m % 2 ^ d)
        (Nat.mod_lt _ (by positivity))
      refine Eq.trans (congrArg digit ?_) this
      funext c
      show 2 * decode d n (m / 2 ^ d) c + m % 2 ^ d / 2 ^ (c : ℕ) % 2 = _
      ring
    rw [h1, ih h2, h3]
    exact Nat.div_add_mod _ _

theorem decode_zkey (n : ℕ) {p : Fin d → ℕ} (hp : ∀ c, p c < 2 ^ n) :
    decode d n (zkey d d n p) = p :=
  zkey_inj (le_refl d) n (fun c => decode_lt n _ c) hp (zkey_decode n (zkey_lt (le_refl d) n p))

theorem zkey_extend (e n : ℕ) {p : Fin d → ℕ} (hp : ∀ c, p c < 2 ^ n) :
    zkey d e (n + 1) p = zkey d e n p := by
  induction n generalizing p with
  | zero =>
    have : p = fun _ => 0 := by funext c; have := hp c; simp at this; exact this
    rw [this, zkey_zero, zkey_zero]
  | succ n ih =>
    have h : ∀ c, p c / 2 < 2 ^ n := fun c => by have := hp c; rw [pow_succ] at this; omega
    rw [zkey_succ d e (n + 1), ih h, ← zkey_succ]

/-- The order of keys does not depend on the number of bits per level. -/
theorem zkey_lt_indep {e e' : ℕ} (h : d ≤ e) (h' : d ≤ e') (n : ℕ) (p q : Fin d → ℕ) :
    (zkey d e n p < zkey d e n q ↔ zkey d e' n p < zkey d e' n q) ∧
      (zkey d e n p = zkey d e n q ↔ zkey d e' n p = zkey d e' n q) := by
  induction n generalizing p q with
  | zero => simp [zkey]
  | succ n ih =>
    obtain ⟨h1, h2⟩ := ih (fun c => p c / 2) (fun c => q c / 2)
    have key : ∀ f, d ≤ f →
        (zkey d f (n + 1) p < zkey d f (n + 1) q ↔
          (zkey d f n (fun c => p c / 2) < zkey d f n (fun c => q c / 2) ∨
          (zkey d f n (fun c => p c / 2) = zkey d f n (fun c => q c / 2) ∧ digit p < digit q))) ∧
        (zkey d f (n + 1) p = zkey d f (n + 1) q ↔
          (zkey d f n (fun c => p c / 2) = zkey d f n (fun c => q c / 2) ∧ digit p = digit q)) := by
      intro f hf
      rw [zkey_succ, zkey_succ]
      have hp := digit_lt_e hf p
      have hq := digit_lt_e hf q
      generalize zkey d f n (fun c => p c / 2) = x
      generalize zkey d f n (fun c => q c / 2) = y
      generalize digit p = u at *
      generalize digit q = v at *
      generalize 2 ^ f = B at *
      rcases Nat.lt_trichotomy x y with hxy | hxy | hxy
      · have : B * x + B ≤ B * y := by
          rw [← Nat.mul_succ]; exact Nat.mul_le_mul_left _ hxy
        constructor <;> constructor <;> intro hh <;> omega
      · subst hxy
        constructor <;> constructor <;> intro hh <;> omega
      · have : B * y + B ≤ B * x := by
          rw [← Nat.mul_succ]; exact Nat.mul_le_mul_left _ hxy
        constructor <;> constructor <;> intro hh <;> omega
    rw [(key e h).1, (key e h).2, (key e' h').1, (key e' h').2, h1, h2]
    exact ⟨Iff.rfl, Iff.rfl⟩

/-! ### Keys inside the coarse grid -/

theorem inGrid_iff (G : Grid d) (m : ℕ) :
    inGrid G m = true ↔ ∀ i, decode d (G.lmin + 1) m i < G.coarse i := by
  unfold inGrid; rw [decide_eq_true_eq]

theorem le_pow_succ (d n : ℕ) : 2 ^ (d * n) ≤ 2 ^ (d * (n + 1)) :=
  Nat.pow_le_pow_right (by norm_num) (Nat.mul_le_mul_left _ (Nat.le_succ n))

/-- A coarse position as a key. -/
theorem coarse_key {G : Grid d} (hG : G.WF) {p : Fin d → ℕ} (hp : ∀ i, p i < G.coarse i) :
    decode d (G.lmin + 1) (zkey d d G.lmin p) = p ∧ zkey d d G.lmin p < mortonMax G ∧
      zkey d d G.lmin p < 2 ^ (d * G.lmin) := by
  have hp2 : ∀ c, p c < 2 ^ G.lmin := fun c => lt_of_lt_of_le (hp c) (hG.le c)
  refine ⟨?_, ?_, zkey_lt (le_refl d) _ _⟩
  · rw [← zkey_extend d G.lmin hp2]
    exact decode_zkey _ (fun c => lt_trans (hp2 c) (Nat.pow_lt_pow_right (by norm_num) (by omega)))
  · unfold mortonMax
    have := zkey_mono (le_refl d) G.lmin (p := p) (q := fun i => G.coarse i - 1)
      (fun c => by have := hp c; have := hG.le c; omega) (fun c => by have := hp c; omega)
    omega

theorem mortonMax_le (G : Grid d) : mortonMax G ≤ 2 ^ (d * G.lmin) := by
  unfold mortonMax
  exact zkey_lt (le_refl d) _ _

/-- End of the key range. -/
def keyEnd (G : Grid d) : ℕ := if isFullCube G then 2 ^ (d * G.lmin) else mortonMax G

theorem keyEnd_le (G : Grid d) : keyEnd G ≤ 2 ^ (d * G.lmin) := by
  unfold keyEnd
  split
  · exact le_refl _
  · exact mortonMax_le G

/-- Number of keys in the grid. -/
theorem count_inGrid {G : Grid d} (hG : G.WF) :
    ((List.range (keyEnd G)).filter (inGrid G)).length = ∏ i, G.coarse i := by
  have h1 : ((List.range (keyEnd G)).filter (inGrid G)).length =
      ((Finset.range (keyEnd G)).filter (fun m => inGrid G m = true)).card := by
    rw [length_filter_range, Nat.count_eq_card_filter_range]
  rw [h1]
  have h2 : (Fintype.piFinset fun i => Finset.range (G.coarse i)).card = ∏ i, G.coarse i := by
    rw [Fintype.card_piFinset]
    simp
  rw [← h2]
  refine Finset.card_bij (fun m _ => decode d (G.lmin + 1) m) ?_ ?_ ?_
  · intro m hm
    rw [Finset.mem_filter, inGrid_iff] at hm
    rw [Fintype.mem_piFinset]
    exact fun i => Finset.mem_range.2 (hm.2 i)
  · intro m hm m' hm' h
    rw [Finset.mem_filter, Finset.mem_range] at hm hm'
    have hle := le_trans (keyEnd_le G) (le_pow_succ d G.lmin)
    rw [← zkey_decode (G.lmin + 1) (lt_of_lt_of_le hm.1 hle),
      ← zkey_decode (G.lmin + 1) (lt_of_lt_of_le hm'.1 hle), h]
  · intro p hp
    rw [Fintype.mem_piFinset] at hp
    have hp' : ∀ i, p i < G.coarse i := fun i => Finset.mem_range.1 (hp i)
    obtain ⟨h3, h4, h5⟩ := coarse_key hG hp'
    refine ⟨zkey d d G.lmin p, ?_, h3⟩
    rw [Finset.mem_filter, Finset.mem_range, inGrid_iff, h3]
    refine ⟨?_, hp'⟩
    unfold keyEnd
    split
    · exact h5
    · exact h4

/-- Number of keys of the grid below `m`. -/
def below (G : Grid d) (m : ℕ) : ℕ := ((List.range m).filter (inGrid G)).length

theorem below_eq (G : Grid d) (m : ℕ) : below G m = Nat.count (fun i => inGrid G i = true) m :=
  length_filter_range _ _

theorem exists_below (G : Grid d) {f n : ℕ} (hf : f < below G n) :
    ∃ m < n, inGrid G m = true ∧ below G m = f := by
  induction n with
  | zero => simp [below] at hf
  | succ n ih =>
    rw [below_eq, Nat.count_succ, ← below_eq] at hf
    by_cases h : inGrid G n = true
    · rw [if_pos h] at hf
      rcases Nat.lt_or_ge f (below G n) with h1 | h1
      · obtain ⟨m, hm, h2⟩ := ih h1
        exact ⟨m, by omega, h2⟩
      · exact ⟨n, by omega, h, by omega⟩
    · rw [if_neg h] at hf
      obtain ⟨m, hm, h2⟩ := ih (by omega)
      exact ⟨m, by omega, h2⟩

theorem firstLocal_mono (G : Grid d) (P : ℕ) {r s : ℕ} (h : r ≤ s) :
    firstLocal G P r ≤ firstLocal G P s :=
  Nat.div_le_div_right (Nat.mul_le_mul_right _ h)

section
variable {G : Grid d} (hG : G.WF) (hT : ∏ i, G.coarse i < 2 ^ 32) {P : ℕ} (hP : 0 < P)

include hT in
theorem total_eq : totalOcts G = ∏ i, G.coarse i := Nat.mod_eq_of_lt hT

include hG hT in
theorem total_pos : 0 < totalOcts G := by
  rw [total_eq hT]
  exact Finset.prod_pos (fun i _ => hG.pos i)

include hT hP in
theorem firstLocal_end : firstLocal G P P = ∏ i, G.coarse i := by
  unfold firstLocal
  rw [Nat.mul_div_cancel_left _ hP, total_eq hT]

include hG hT hP

/-- The intervals are the positions of the cuts in the list of keys. -/
theorem initIntervals_spec : ∀ r ≤ P, initIntervals G P r ≤ keyEnd G ∧
    below G (initIntervals G P r) = firstLocal G P r := by
  intro r hr
  have hend := count_inGrid hG
  unfold initIntervals
  by_cases hf : isFullCube G = true
  · rw [if_pos hf]
    have hke : keyEnd G = 2 ^ (d * G.lmin) := by unfold keyEnd; rw [if_pos hf]
    have hc : ∀ i, G.coarse i = 2 ^ G.lmin := by simpa [isFullCube] using hf
    have htot : totalOcts G = 2 ^ (d * G.lmin) := by
      rw [total_eq hT]
      simp only [hc]
      rw [Finset.prod_const, Finset.card_univ, Fintype.card_fin, ← pow_mul, Nat.mul_comm]
    have hle : r * totalOcts G / P ≤ 2 ^ (d * G.lmin) := by
      rw [htot]
      apply Nat.div_le_of_le_mul
      exact Nat.mul_le_mul_right _ hr
    refine ⟨by rw [hke]; exact hle, ?_⟩
    rw [below_eq, show firstLocal G P r = r * totalOcts G / P from rfl, Nat.count_iff_forall]
    intro m hm
    rw [inGrid_iff]
    intro i
    rw [hc i]
    have hm2 : m < 2 ^ (d * G.lmin) := by omega
    have h1 := zkey_decode G.lmin hm2
    have h2 : ∀ c, decode d G.lmin m c < 2 ^ G.lmin := fun c => decode_lt _ _ c
    rw [← h1, ← zkey_extend d G.lmin h2, decode_zkey _ (fun c => lt_trans (h2 c)
      (Nat.pow_lt_pow_right (by norm_num) (by omega)))]
    exact h2 i
  · rw [if_neg hf]
    have hke : keyEnd G = mortonMax G := by unfold keyEnd; rw [if_neg hf]
    rw [hke] at hend
    by_cases hrP : r < P
    · rw [if_pos hrP, hke]
      have hfl : firstLocal G P r < below G (mortonMax G) := by
        unfold below
        rw [hend, ← total_eq hT]
        unfold firstLocal
        rw [Nat.div_lt_iff_lt_mul hP, Nat.mul_comm]
        exact Nat.mul_lt_mul_of_pos_left hrP (total_pos hG hT)
      obtain ⟨m, hm, h1, h2⟩ := exists_below G hfl
      unfold scanFirst
      cases hfind : (List.range (mortonMax G)).find? _ with
      | none =>
        rw [List.find?_eq_none] at hfind
        have := hfind m (List.mem_range.2 hm)
        rw [h1, Bool.true_and, decide_eq_true_eq] at this
        exact absurd h2 this
      | some m' =>
        have h3 := List.find?_some hfind
        rw [Bool.and_eq_true, decide_eq_true_eq] at h3
        have h4 := List.mem_range.1 (List.mem_of_find?_eq_some hfind)
        exact ⟨le_of_lt h4, h3.2⟩
    · have : r = P := by omega
      subst this
      rw [if_neg hrP]
      refine ⟨le_of_eq hke.symm, ?_⟩
      rw [firstLocal_end hT hP]
      exact hend

theorem initIntervals_zero : initIntervals G P 0 = 0 := by
  have h := (initIntervals_spec hG hT hP 0 (Nat.zero_le _)).2
  rw [show firstLocal G P 0 = 0 by simp [firstLocal], below_eq] at h
  by_contra hc
  have h1 := Nat.count_monotone (fun i => inGrid G i = true) (by omega : 1 ≤ initIntervals G P 0)
  rw [h] at h1
  have h2 : inGrid G 0 = true := by
    rw [inGrid_iff]
    intro i
    have : decode d (G.lmin + 1) 0 = fun _ => 0 := by
      have := decode_zkey (d := d) (G.lmin + 1) (p := fun _ => 0) (fun c => by positivity)
      rwa [zkey_zero] at this
    rw [this]
    exact hG.pos i
  simp [Nat.count_succ, h2] at h1

theorem initIntervals_mono : ∀ r < P, initIntervals G P r ≤ initIntervals G P (r + 1) := by
  intro r hr
  by_contra hc
  have h1 := (initIntervals_spec hG hT hP r (by omega)).2
  have h2 := (initIntervals_spec hG hT hP (r + 1) (by omega)).2
  have h3 := Nat.count_monotone (fun i => inGrid G i = true)
    (by omega : initIntervals G P (r + 1) ≤ initIntervals G P r)
  rw [← below_eq, ← below_eq, h1, h2] at h3
  have h4 := firstLocal_mono G P (Nat.le_succ r)
  have h5 : firstLocal G P (r + 1) = firstLocal G P r := le_antisymm h3 h4
  -- equal counts: in both branches equal shares give equal intervals
  have h6 : initIntervals G P (r + 1) = initIntervals G P r := by
    unfold initIntervals at hc ⊢
    by_cases hf : isFullCube G = true
    · simp only [hf, if_true] at hc ⊢
      exact h5
    · simp only [hf] at hc ⊢
      by_cases hr1 : r + 1 < P
      · simp [hr1, hr, h5]
      · exfalso
        have h7 := (initIntervals_spec hG hT hP r (by omega)).1
        unfold initIntervals keyEnd at h7
        simp [hf, hr] at h7
        simp [hr1, hr] at hc
        omega
  omega

omit hG in
theorem initIntervals_end : initIntervals G P P = keyEnd G := by
  unfold initIntervals keyEnd
  by_cases hf : isFullCube G = true
  · simp only [hf, if_true]
    have hc : ∀ i, G.coarse i = 2 ^ G.lmin := by simpa [isFullCube] using hf
    rw [Nat.mul_div_cancel_left _ hP, total_eq hT]
    simp only [hc]
    rw [Finset.prod_const, Finset.card_univ, Fintype.card_fin, ← pow_mul, Nat.mul_comm]
  · simp [hf]

/-- All local keys together. -/
theorem init_all : ∀ n ≤ P,
    ((List.range n).map fun r =>
      ((List.range' (initIntervals G P r) (initIntervals G P (r + 1) - initIntervals G P r)).filter
        (inGrid G))).flatten = (List.range (initIntervals G P n)).filter (inGrid G) := by
  intro n
  induction n with
  | zero => intro _; simp [initIntervals_zero hG hT hP]
  | succ n ih =>
    intro hn
    have hm := initIntervals_mono hG hT hP n (by omega)
    rw [List.range_succ, List.map_append, List.flatten_append, ih (by omega)]
    simp only [List.map_cons, List.map_nil, List.flatten_cons, List.flatten_nil, List.append_nil]
    rw [← List.filter_append, List.range_eq_range', List.range_eq_range']
    congr 1
    have := List.range'_append_1 (s := 0) (m := initIntervals G P n)
      (n := initIntervals G P (n + 1) - initIntervals G P n)
    rw [Nat.zero_add] at this
    rw [this]
    congr 1
    omega

end

end Verif.Partition
