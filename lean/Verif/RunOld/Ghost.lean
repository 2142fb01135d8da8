import Verif.RunOld.Model
import Verif.Partition.Ghost

/-!
# The discovery of ghosts in `AMRmesh_hashmap`

It finds the same ranks as that of `AMRmesh_hashmap_new`.
-/

namespace Verif.RunOld

open Verif.Octree Verif.Adapt Verif.Partition Verif.Run Verif.Morton

variable {d P : ℕ}

/-- The search over one more entry makes no difference for keys below the last entry. -/
theorem upperBound_succ {P : ℕ} {I : ℕ → ℕ} (h : ∀ r < P, I r ≤ I (r + 1)) {m : ℕ} (hm : m < I P) :
    upperBound I m 0 (P + 1) = upperBound I m 0 P := by
  have hmono := mono_of_step h
  obtain ⟨a1, a2, a3⟩ := upperBound_spec I m (P + 1) (fun i j hij hj => hmono i j hij (by omega)) 0 (P + 1)
    (fun i hi => absurd hi (by omega)) (fun i hi hiP => absurd hi (by omega)) (Nat.zero_le _) (le_refl _)
  obtain ⟨b1, b2, b3⟩ := upperBound_spec I m P (fun i j hij hj => hmono i j hij (by omega)) 0 P
    (fun i hi => absurd hi (by omega)) (fun i hi hiP => absurd hi (by omega)) (Nat.zero_le _) (le_refl _)
  generalize upperBound I m 0 (P + 1) = u at *
  generalize upperBound I m 0 P = v at *
  have hu : u ≤ P := by
    by_contra hc
    have := a1 P (by omega)
    omega
  rcases Nat.lt_trichotomy u v with h1 | h1 | h1
  · have := a2 u (le_refl _) (by omega)
    have := b1 u h1
    omega
  · exact h1
  · have := a1 v h1
    have := b2 v (le_refl _) (by omega)
    omega

theorem mkey_lt {e L : ℕ} (hde : d ≤ e) {o : Oct d} (ho : o.level ≤ L + 1) :
    mkey e L o < 2 ^ (e * L) := by
  have hz := zkey_lt hde o.level o.pos
  unfold mkey shiftKey
  split
  · next h =>
    calc zkey d e o.level o.pos * 2 ^ (e * (L - o.level))
        < 2 ^ (e * o.level) * 2 ^ (e * (L - o.level)) := Nat.mul_lt_mul_of_pos_right hz (by positivity)
      _ = 2 ^ (e * L) := by rw [← pow_add, ← Nat.mul_add, Nat.add_sub_cancel' h]
  · next h =>
    have hl : o.level = L + 1 := by omega
    rw [hl] at hz ⊢
    rw [show L + 1 - L = 1 by omega, Nat.div_lt_iff_lt_mul (by positivity), ← pow_add, ← Nat.mul_add]
    exact hz

theorem two_pow_lt {e L : ℕ} (h64 : e * L < 64) : 2 ^ (e * L) ≤ 2 ^ 64 - 1 := by
  have : 2 ^ (e * L) ≤ 2 ^ 63 := Nat.pow_le_pow_right (by norm_num) (by omega)
  omega

/-- Keys of suboctants by arithmetic on keys. -/
theorem subKeys_eq (e L : ℕ) {l : ℕ} (hl : l ≤ L) (p : Fin d → ℕ) (off : Fin d → SignType) :
    subKeys e L l (mkey e L ⟨l, p⟩) off = (subOctants l p off).map (mkey e L) := by
  unfold subKeys subOctants
  simp only [List.map_map]
  apply List.map_congr_left
  intro s hs
  rw [mem_loops] at hs
  show shiftKey e _ (l + 1) L = shiftKey e (zkey d e (l + 1) _) (l + 1) L
  congr 1
  have h1 : shiftKey e (mkey e L ⟨l, p⟩) L (l + 1) = zkey d e l p * 2 ^ e := by
    show shiftKey e (shiftKey e (zkey d e l p) l L) L (l + 1) = _
    unfold shiftKey
    rw [if_pos hl]
    split
    · next h =>
      rw [Nat.mul_assoc, ← pow_add, ← Nat.mul_add, show L - l + (l + 1 - L) = 1 by omega, Nat.mul_one]
    · next h =>
      have : e * (L - l) = e + e * (L - (l + 1)) := by
        rw [show L - l = 1 + (L - (l + 1)) by omega, Nat.mul_add, Nat.mul_one]
      rw [this, pow_add, ← Nat.mul_assoc, Nat.mul_div_cancel _ (by positivity)]
  have hbit : ∀ i, (if off i = -1 then 1 else 0) + s i ≤ 1 := by
    intro i
    have := hs i
    by_cases h0 : off i = 0
    · rw [if_neg (by rw [h0]; decide)]
      rw [if_pos h0] at this
      simp at this
      omega
    · rw [if_neg h0] at this
      simp at this
      rw [this]
      split <;> omega
  rw [h1]
  show _ = 2 ^ e * zkey d e l (fun c => ((p c <<< 1) + (if off c = -1 then 1 else 0) + s c) / 2) +
    digit fun c => (p c <<< 1) + (if off c = -1 then 1 else 0) + s c
  have h2 : (fun c => ((p c <<< 1) + (if off c = -1 then 1 else 0) + s c) / 2) = p := by
    funext c
    have := hbit c
    rw [Nat.shiftLeft_eq]
    omega
  rw [h2, Nat.mul_comm, Nat.add_assoc]
  congr 1
  unfold digit
  rw [← Finset.sum_add_distrib]
  apply Finset.sum_congr rfl
  intro i _
  have := hbit i
  rw [← Nat.add_mul]
  congr 1
  beta_reduce
  rw [Nat.shiftLeft_eq]
  omega

/-- Both meshes find the same ranks. -/
theorem ghostRanks_eq {e L : ℕ} (hde : d ≤ e) {P : ℕ} {I : ℕ → ℕ} (h : ∀ r < P, I r ≤ I (r + 1))
    (hP : 2 ^ (e * L) ≤ I P) (G : Grid d) (rank : ℕ) {a : Oct d} (ha : a.level ≤ L) :
    ghostRanks e L G I P rank a = Partition.ghostRanks e L G I P rank a := by
  have hf : ∀ m < 2 ^ (e * L), findRank I P m = Partition.findRank I P m := fun m hm => by
    unfold findRank Partition.findRank
    rw [upperBound_succ h (by omega)]
  unfold ghostRanks Partition.ghostRanks
  congr 1
  apply List.flatMap_congr
  intro off _
  unfold registerDir Partition.registerDir
  have hm : mkey e L (⟨a.level, wrapPos G a off⟩ : Oct d) < 2 ^ (e * L) := mkey_lt hde (by simp only; omega)
  simp only
  rw [subKeys_eq e L ha, upperBound_succ h (lt_of_lt_of_le hm hP), hf _ hm, List.map_map]
  have : List.map (findRank I P ∘ mkey e L) (subOctants a.level (wrapPos G a off) off) =
      List.map (fun s => Partition.findRank I P (mkey e L s)) (subOctants a.level (wrapPos G a off) off) := by
    apply List.map_congr_left
    intro s hs
    apply hf
    apply mkey_lt hde
    unfold subOctants at hs
    obtain ⟨t, -, rfl⟩ := List.mem_map.1 hs
    simp only
    omega
  rw [this]

theorem discovered_eq [NeZero P] {e L : ℕ} (hde : d ≤ e) {I : ℕ → ℕ} (h : ∀ r < P, I r ≤ I (r + 1))
    (hP : 2 ^ (e * L) ≤ I P) (G : Grid d) (octs : Fin P → List (Oct d))
    (hL : ∀ a ∈ leaves octs, a.level ≤ L) (s : Fin P) :
    discovered e L G I octs s = Run.discovered e L G I octs s := by
  unfold discovered Run.discovered
  apply Finset.filter_congr
  intro a ha
  rw [ghostRanks_eq hde h hP G _ (hL a ha)]

end Verif.RunOld
