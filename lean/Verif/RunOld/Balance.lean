import Verif.RunOld.Model
import Verif.Partition.Props

/-!
# Load balancing in `AMRmesh_hashmap`
-/

namespace Verif.RunOld

open Verif.Octree Verif.Adapt Verif.Partition Verif.Run Verif.Morton

variable {d : ℕ}

theorem exchanged_old (ls : List (List (Oct d))) (J : ℕ → ℕ) (h0 : J 0 = 0)
    (hm : ∀ s < ls.length, J s ≤ J (s + 1)) {s : ℕ} (hs : s < ls.length) :
    exchanged ls J s = Partition.exchanged ls J s := by
  unfold exchanged Partition.exchanged
  apply List.flatMap_congr
  intro r _
  simp only
  have hms := hm s hs
  rw [displs_sendSize ls J h0 hm r s (by omega), sendSize_eq]
  set n := (ls.getD r []).length
  set f := firstIdx ls r
  have hn : min (J (s + 1) - f) n - (J s - f) = min (J (s + 1)) (f + n) - max (J s) f := by omega
  rw [hn]
  rcases Nat.eq_zero_or_pos (min (J (s + 1)) (f + n) - max (J s) f) with h | h
  · rw [h, List.take_zero, List.take_zero]
  · rw [show min (J s) (f + n) - f = J s - f by omega]

section
variable {e L : ℕ} {G : Grid d} {M : Finset (Oct d)} {ls : List (List (Oct d))}

theorem keyAt_le_top (hs : Sorted e L (2 ^ 64 - 1) G M ls.flatten) (i : ℕ) :
    keyAt e L (2 ^ 64 - 1) ls.flatten i ≤ 2 ^ 64 - 1 := by
  have := hs.keyAt_mono (Nat.le_max_left i ls.flatten.length)
  rwa [keyAt_of_ge (Nat.le_max_right _ _)] at this

theorem currentIntervals_eq (hs : Sorted e L (2 ^ 64 - 1) G M ls.flatten) (h0 : ls.getD 0 [] ≠ []) :
    currentIntervals e L ls = some (oldIntervals e L ls) := by
  unfold currentIntervals
  simp only
  rw [if_pos]
  refine ⟨?_, fun i hi _ => ?_⟩
  · rw [oldIntervals_eq hs h0 (Nat.zero_le _), firstIdx_zero]
    exact hs.first.2
  · rw [oldIntervals_eq hs h0 (by omega), oldIntervals_eq hs h0 (by omega)]
    exact hs.keyAt_mono (firstIdx_le ls (Nat.le_succ i) hi)

/-- Keys of the local octants. -/
theorem local_key (hs : Sorted e L (2 ^ 64 - 1) G M ls.flatten) {r : ℕ} (hr : r < ls.length) {x : ℕ}
    (hx : x < (ls.getD r []).length) :
    mkey e L (ls.getD r [])[x] = keyAt e L (2 ^ 64 - 1) ls.flatten (firstIdx ls r + x) := by
  have h4 := getElem_flatten ls hr hx
  have hlt : firstIdx ls r + x < ls.flatten.length := by
    have := firstIdx_le_length ls (by omega : r + 1 ≤ ls.length)
    rw [firstIdx_succ ls hr] at this
    omega
  rw [keyAt_of_lt hlt]
  rw [List.getElem?_eq_getElem hlt, List.getElem?_eq_getElem hx] at h4
  rw [Option.some.inj h4]
  apply mkey_eq
  apply hs.level
  rw [← hs.mem, ← Option.some.inj h4]
  exact List.getElem_mem hlt

/-- `newOct` finds the indices of the cuts. -/
theorem newOct_old (hs : Sorted e L (2 ^ 64 - 1) G M ls.flatten) (h0 : ls.getD 0 [] ≠ []) (I J : ℕ → ℕ)
    (hJ : ∀ i < ls.length, J i < ls.flatten.length)
    (hI : ∀ i < ls.length, I i = keyAt e L (2 ^ 64 - 1) ls.flatten (J i))
    (hIP : I ls.length = 2 ^ 64 - 1)
    (hJm : ∀ i j, i ≤ j → j < ls.length → J i ≤ J j) {i : ℕ} (hi : i < ls.length) :
    newOct e L ls (oldIntervals e L ls) I i = some (J i) := by
  have hex : ∀ i, ∃ r, i < ls.length → r < ls.length ∧
      firstIdx ls r ≤ J i ∧ J i < firstIdx ls (r + 1) := by
    intro i
    by_cases h : i < ls.length
    · obtain ⟨r, hr, h1⟩ := exists_rank ls (hJ i h)
      exact ⟨r, fun _ => ⟨hr, h1⟩⟩
    · exact ⟨0, fun h1 => absurd h1 h⟩
  choose ρ hρ using hex
  have hfm : ∀ r < ls.length, firstIdx ls r ≤ firstIdx ls (r + 1) := fun r hr =>
    firstIdx_le ls (Nat.le_succ r) hr
  have hmine : ∀ r < ls.length, ∀ i < ls.length,
      decide (oldIntervals e L ls r ≤ I i ∧ I i < oldIntervals e L ls (r + 1)) = true ↔ ρ i = r := by
    intro r hr i hi
    obtain ⟨h1, h2, h3⟩ := hρ i hi
    rw [decide_eq_true_eq, hI i hi, keyAt_of_lt (hJ i hi)]
    rw [oldIntervals_eq hs h0 (by omega), oldIntervals_eq hs h0 (by omega),
      hs.keyAt_le_iff (hJ i hi), hs.lt_keyAt_iff (hJ i hi)]
    constructor
    · intro h
      exact Owns.unique hfm h1 hr ⟨h2, h3⟩ h
    · rintro rfl
      exact ⟨h2, h3⟩
  have htop : ∀ r, ¬ I ls.length < oldIntervals e L ls (r + 1) := by
    intro r
    rw [hIP]
    rcases Nat.lt_or_ge (r + 1) ls.length with h | h
    · rw [oldIntervals_eq hs h0 (by omega)]
      exact not_lt.2 (keyAt_le_top hs _)
    · unfold oldIntervals
      rw [if_neg (by omega)]
      exact lt_irrefl _
  have hcount : (fun r => ((List.range (ls.length + 1)).filter fun i =>
        decide (oldIntervals e L ls r ≤ I i ∧ I i < oldIntervals e L ls (r + 1))).length) =
      fun r => ((List.range ls.length).filter fun i =>
        decide (oldIntervals e L ls r ≤ I i ∧ I i < oldIntervals e L ls (r + 1))).length := by
    funext r
    rw [List.range_succ, List.filter_append]
    simp [htop r]
  unfold newOct
  simp only
  rw [if_pos hi, hcount, allgatherv_spec (fun r i => decide (oldIntervals e L ls r ≤ I i ∧
    I i < oldIntervals e L ls (r + 1))) ρ (fun i hi => (hρ i hi).1) ?_ hmine _ hi]
  · congr 1
    rw [if_pos ((hmine (ρ i) (hρ i hi).1 i hi).2 rfl)]
    obtain ⟨h1, h2, h3⟩ := hρ i hi
    rw [firstIdx_succ ls h1] at h3
    have hx : J i - firstIdx ls (ρ i) < (ls.getD (ρ i) []).length := by omega
    unfold pivot
    rw [(List.findIdx_eq hx).2]
    · omega
    · constructor
      · rw [decide_eq_true_eq, local_key hs h1 hx, hI i hi,
          show firstIdx ls (ρ i) + (J i - firstIdx ls (ρ i)) = J i by omega]
      · intro j hj
        rw [decide_eq_false_iff_not, local_key hs h1 (by omega), hI i hi, not_le]
        have hlt : firstIdx ls (ρ i) + j < ls.flatten.length := by
          have := hJ i hi
          omega
        rw [keyAt_of_lt hlt, hs.lt_keyAt_iff hlt]
        omega
  · intro i j hij hj
    obtain ⟨h1, h2, h3⟩ := hρ i (by omega)
    obtain ⟨h4, h5, h6⟩ := hρ j hj
    by_contra hc
    have h7 := firstIdx_le ls (by omega : ρ j + 1 ≤ ρ i) (by omega)
    have h8 := hJm i j hij hj
    omega

theorem truncKey_mono (e k : ℕ) {m n : ℕ} (h : m ≤ n) : truncKey e m k ≤ truncKey e n k :=
  Nat.mul_le_mul_right _ (Nat.div_le_div_right h)

/-- Load balancing cuts the concatenated list at the blocks that contain the octants of even index; it
fails exactly if that leaves a rank without octants. -/
theorem loadBalance_spec (hs : Sorted e L (2 ^ 64 - 1) G M ls.flatten) (h0 : ls.getD 0 [] ≠ [])
    (level : ℕ) :
    ∃ (J I : ℕ → ℕ), J 0 = 0 ∧ J ls.length = ls.flatten.length ∧
      (∀ r < ls.length, J r ≤ J (r + 1)) ∧
      (∀ r < ls.length, J r < ls.flatten.length) ∧
      (∀ r ≤ ls.length, I r = keyAt e L (2 ^ 64 - 1) ls.flatten (J r)) ∧
      (∀ r < ls.length, I r = truncKey e (keyAt e L (2 ^ 64 - 1) ls.flatten
        (evenIdx ls.flatten.length ls.length r)) level) ∧
      ((∀ r < ls.length, J r < J (r + 1)) →
        loadBalance e L level ls = some ((List.range ls.length).map fun s =>
          (ls.flatten.drop (J s)).take (J (s + 1) - J s), I)) ∧
      (¬ (∀ r < ls.length, J r < J (r + 1)) → loadBalance e L level ls = none) := by
  set g := ls.flatten with hg
  set P := ls.length with hPdef
  have hNpos := hs.first.1
  have hP : 0 < P := by
    rcases Nat.eq_zero_or_pos P with h | h
    · exfalso
      have : ls = [] := List.eq_nil_of_length_eq_zero h
      rw [hg, this] at hNpos
      simp at hNpos
    · exact h
  set raw : ℕ → ℕ := fun i => (rawCuts e L ls i).getD 0 with hrawdef
  have hraw : ∀ i < P, raw i = keyAt e L (2 ^ 64 - 1) g (evenIdx g.length P i) := by
    intro i hi
    rw [hrawdef]
    simp only
    rw [rawCuts_eq hs hi]
    rfl
  set I := newIntervals e level P raw with hIdef
  have hcut : ∀ r < P, I r = truncKey e (keyAt e L (2 ^ 64 - 1) g (evenIdx g.length P r)) level := by
    intro r hr
    rw [hIdef]
    unfold newIntervals
    rw [if_pos hr]
    congr 1
    split
    · next h =>
      rw [h]
      have : evenIdx g.length P 0 = 0 := by simp [evenIdx]
      rw [this]
      exact hs.first.2.symm
    · exact hraw r hr
  have hIP : I P = 2 ^ 64 - 1 := by
    rw [hIdef]
    unfold newIntervals
    rw [if_neg (by omega)]
  have hex : ∀ r, ∃ j, r < P → ∃ hj : j < g.length, I r = okey e L g[j] := by
    intro r
    by_cases hr : r < P
    · have hlt := evenIdx_lt (P := P) hNpos hr
      obtain ⟨j, hj, -, hk⟩ := hs.trunc_leaf hlt level
      exact ⟨j, fun _ => ⟨hj, by rw [hcut r hr, keyAt_of_lt hlt, hk]⟩⟩
    · exact ⟨0, fun h => absurd h hr⟩
  choose J' hJ' using hex
  set J : ℕ → ℕ := fun r => if r < P then J' r else g.length with hJdef
  have hJlt : ∀ r, r < P → J r = J' r := fun r hr => by rw [hJdef]; simp only [hr, if_true]
  have hJP : J P = g.length := by rw [hJdef]; simp
  have hI : ∀ r ≤ P, I r = keyAt e L (2 ^ 64 - 1) g (J r) := by
    intro r hr
    rcases Nat.lt_or_ge r P with h | h
    · obtain ⟨hj, hk⟩ := hJ' r h
      rw [hJlt r h, keyAt_of_lt hj, hk]
    · have : r = P := by omega
      rw [this, hJP, keyAt_of_ge (le_refl _), hIP]
  have hJb : ∀ r < P, J r < g.length := fun r hr => by
    rw [hJlt r hr]; exact (hJ' r hr).1
  have hImono : ∀ r < P, I r ≤ I (r + 1) := by
    intro r hr
    rcases Nat.lt_or_ge (r + 1) P with h | h
    · rw [hcut r hr, hcut (r + 1) h]
      exact truncKey_mono e level (hs.keyAt_mono (evenIdx_mono (by omega)))
    · have : r + 1 = P := by omega
      rw [this, hIP, hI r (by omega)]
      exact keyAt_le_top hs _
  have hJm : ∀ r < P, J r ≤ J (r + 1) := by
    intro r hr
    rcases Nat.lt_or_ge (r + 1) P with h | h
    · have := hImono r hr
      rw [hI r (by omega), hI (r + 1) (by omega), keyAt_of_lt (hJb _ h),
        hs.keyAt_le_iff (hJb _ h)] at this
      exact this
    · have : r + 1 = P := by omega
      rw [this, hJP]
      exact le_of_lt (hJb r hr)
  have hJ0 : J 0 = 0 := by
    have h1 := hI 0 (Nat.zero_le _)
    rw [hcut 0 hP, keyAt_of_lt (hJb 0 hP)] at h1
    have h2 : evenIdx g.length P 0 = 0 := by simp [evenIdx]
    rw [h2, hs.first.2] at h1
    have h3 : truncKey e 0 level = 0 := by simp [truncKey]
    rw [h3] at h1
    by_contra hc
    have h3 := (hs.lt_iff hNpos (hJb 0 hP)).2 (by omega)
    omega
  have hnew : ∀ i < P, newOct e L ls (oldIntervals e L ls) I i = some (J i) := fun i hi =>
    newOct_old hs h0 I J hJb (fun i hi => hI i (by omega)) hIP
      (fun i j hij hj => mono_of_step hJm i j hij (by omega)) hi
  have hnewP : newOct e L ls (oldIntervals e L ls) I P = some g.length := by
    unfold newOct
    simp only
    rw [if_neg (by omega)]
  set J2 : ℕ → ℕ := fun i => (newOct e L ls (oldIntervals e L ls) I i).getD 0 with hJ2
  have hJfun : ∀ i ≤ P, J2 i = J i := by
    intro i hi
    rw [hJ2]
    simp only
    rcases Nat.lt_or_ge i P with h | h
    · rw [hnew i h]; rfl
    · have : i = P := by omega
      rw [this, hnewP, hJP]; rfl
  have hJ2m : ∀ s < P, J2 s ≤ J2 (s + 1) := by
    intro s h
    rw [hJfun s (by omega), hJfun (s + 1) (by omega)]
    exact hJm s h
  have hJ20 : J2 0 = 0 := (hJfun 0 (Nat.zero_le _)).trans hJ0
  have hJle : ∀ s < P, J (s + 1) ≤ g.length := fun s h => by
    rw [← hJP]
    exact mono_of_step hJm (s + 1) P (by omega) (le_refl _)
  have hexc : ∀ s < P, exchanged ls J2 s = (g.drop (J s)).take (J (s + 1) - J s) := by
    intro s hs'
    rw [exchanged_old ls J2 hJ20 hJ2m hs', exchanged_eq ls J2 hJ20 hJ2m hs' (by
      rw [hJfun (s + 1) (by omega), ← hg]; exact hJle s hs'), hJfun s (by omega),
      hJfun (s + 1) (by omega)]
  have hlen : ∀ s < P, (exchanged ls J2 s).length = J (s + 1) - J s := by
    intro s h
    rw [hexc s h, List.length_take, List.length_drop]
    have := hJle s h
    have := hJm s h
    omega
  have hc1 : (List.range P).all (fun i => (rawCuts e L ls i).isSome) = true := by
    rw [List.all_eq_true]
    intro i hi
    rw [rawCuts_eq hs (List.mem_range.1 hi)]; rfl
  have hc2 : (List.range P).all (fun i => decide (I i ≤ I (i + 1))) = true := by
    rw [List.all_eq_true]
    intro i hi
    exact decide_eq_true (hImono i (List.mem_range.1 hi))
  have hc3 : (List.range P).all (fun i => (newOct e L ls (oldIntervals e L ls) I i).isSome) = true := by
    rw [List.all_eq_true]
    intro i hi
    rw [hnew i (List.mem_range.1 hi)]; rfl
  have hlb : loadBalance e L level ls =
      if (List.range P).all (fun i => inInterval e L I i (exchanged ls J2 i) &&
        !(exchanged ls J2 i).isEmpty) = true then some ((List.range P).map (exchanged ls J2), I)
      else none := by
    unfold loadBalance
    simp only
    rw [if_pos hc1, if_pos hc2, currentIntervals_eq hs h0, Option.bind_some, if_pos hc3]
  have hin : ∀ s < P, inInterval e L I s (exchanged ls J2 s) = true := by
    intro s h
    have hmk : ∀ o ∈ exchanged ls J2 s, I s ≤ mkey e L o ∧ mkey e L o < I (s + 1) := by
      intro o ho
      obtain ⟨j, hj, rfl⟩ := List.mem_iff_getElem.1 ho
      have hj' := hj
      rw [hlen s h] at hj'
      have hb : J s + j < g.length := by
        have := hJle s h
        omega
      have hget : (exchanged ls J2 s)[j] = g[J s + j] := by
        simp only [hexc s h, List.getElem_take, List.getElem_drop]
      rw [hget, mkey_eq (hs.level _ ((hs.mem _).1 (List.getElem_mem hb)))]
      have := (hs.owns_iff (I := I) hI h hb).2 ⟨by omega, by omega⟩
      exact this
    unfold inInterval
    rw [Bool.and_eq_true, Option.all_eq_true, Option.all_eq_true]
    constructor
    · intro o ho
      exact decide_eq_true (hmk o (List.mem_of_mem_head? ho)).1
    · intro o ho
      exact decide_eq_true (hmk o (List.mem_of_getLast? ho)).2
  refine ⟨J, I, hJ0, hJP, hJm, hJb, hI, hcut, fun hstr => ?_, fun hn => ?_⟩
  · rw [hlb, if_pos]
    · congr 2
      apply List.map_congr_left
      intro s hs'
      exact hexc s (List.mem_range.1 hs')
    · rw [List.all_eq_true]
      intro i hi
      have hi' := List.mem_range.1 hi
      rw [Bool.and_eq_true]
      refine ⟨hin i hi', ?_⟩
      have h2 := hstr i hi'
      have h3 := hlen i hi'
      have h4 : exchanged ls J2 i ≠ [] := List.ne_nil_of_length_pos (by omega)
      simp [h4]
  · rw [hlb, if_neg]
    intro hall
    apply hn
    intro r hr
    rw [List.all_eq_true] at hall
    have := hall r (List.mem_range.2 hr)
    rw [Bool.and_eq_true] at this
    have h3 := hlen r hr
    have h4 : exchanged ls J2 r ≠ [] := by
      have := this.2
      simpa using this
    have := List.length_pos_iff.2 h4
    omega

end

end Verif.RunOld
