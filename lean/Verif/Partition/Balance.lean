import Verif.Partition.Cut

/-!
# Load balancing: lemmas
-/

namespace Verif.Partition

open Verif.Octree Verif.Morton Verif.Adapt

variable {d : ℕ}

/-! ### Gathering -/

theorem length_filter_range (p : ℕ → Bool) (n : ℕ) :
    ((List.range n).filter p).length = Nat.count (fun i => p i = true) n := by
  induction n with
  | zero => rfl
  | succ n ih =>
    rw [List.range_succ, List.filter_append, List.length_append, ih, Nat.count_succ]
    by_cases h : p n <;> simp [h]

theorem count_initial {p : ℕ → Prop} [DecidablePred p] {P i : ℕ} (hi : i < P)
    (hp : ∀ j k, j ≤ k → k < P → p k → p j) : Nat.count p P ≤ i ↔ ¬ p i := by
  constructor
  · intro h hpi
    have h1 : Nat.count p (i + 1) = i + 1 := by
      rw [Nat.count_iff_forall]
      intro j hj
      exact hp j i (by omega) hi hpi
    have h2 := Nat.count_monotone p (by omega : i + 1 ≤ P)
    omega
  · intro h
    have h1 : ∀ n, i ≤ n → n ≤ P → Nat.count p n = Nat.count p i := by
      intro n hn hnP
      induction n, hn using Nat.le_induction with
      | base => rfl
      | succ n hn ih =>
        rw [Nat.count_succ, ih (by omega), if_neg (fun hc => h (hp i n hn (by omega) hc))]
        omega
    rw [h1 P (le_of_lt hi) (le_refl _)]
    exact Nat.count_le p

/-- If each index is filled by one rank, and ranks fill increasing indices, the gathered array holds
for each index the value of the rank that filled it. -/
theorem allgatherv_spec {α : Type} {P : ℕ} (mine : ℕ → ℕ → Bool) (ρ : ℕ → ℕ)
    (hρ : ∀ i < P, ρ i < P) (hmono : ∀ i j, i ≤ j → j < P → ρ i ≤ ρ j)
    (hmine : ∀ r < P, ∀ i < P, mine r i = true ↔ ρ i = r) (buf : ℕ → ℕ → α) {i : ℕ} (hi : i < P) :
    allgatherv P (fun r => ((List.range P).filter (mine r)).length) buf i = some (buf (ρ i) i) := by
  have hdis : ∀ r ≤ P, displs (fun r => ((List.range P).filter (mine r)).length) r =
      ((List.range P).filter fun i => decide (ρ i < r)).length := by
    intro r
    induction r with
    | zero => intro _; simp [displs]
    | succ r ih =>
      intro hr
      unfold displs at ih ⊢
      rw [List.range_succ, List.map_append, List.sum_append, ih (by omega)]
      simp only [List.map_cons, List.map_nil, List.sum_cons, List.sum_nil, Nat.add_zero]
      clear ih
      have : ∀ l : List ℕ, (∀ x ∈ l, x < P) →
          (l.filter fun i => decide (ρ i < r)).length + (l.filter (mine r)).length =
          (l.filter fun i => decide (ρ i < r + 1)).length := by
        intro l hl
        induction l with
        | nil => rfl
        | cons x l ih =>
          have ih' := ih (fun y hy => hl y (List.mem_cons_of_mem _ hy))
          have hx := hmine r (by omega) x (hl x List.mem_cons_self)
          rcases Nat.lt_trichotomy (ρ x) r with h | h | h
          · have h1 : mine r x = false := by
              rw [Bool.eq_false_iff]; intro hc; have := hx.1 hc; omega
            rw [List.filter_cons_of_pos (by simpa using h), List.filter_cons_of_neg (by simp [h1]),
              List.filter_cons_of_pos (by simpa using by omega), List.length_cons, List.length_cons]
            omega
          · rw [List.filter_cons_of_neg (by simpa using by omega),
              List.filter_cons_of_pos (hx.2 h),
              List.filter_cons_of_pos (by simpa using by omega), List.length_cons, List.length_cons]
            omega
          · have h1 : mine r x = false := by
              rw [Bool.eq_false_iff]; intro hc; have := hx.1 hc; omega
            rw [List.filter_cons_of_neg (by simpa using by omega), List.filter_cons_of_neg (by simp [h1]),
              List.filter_cons_of_neg (by simpa using by omega)]
            exact ih'
      exact this _ (fun x hx => List.mem_range.1 hx)
  have hin : ∀ r ≤ P, displs (fun r => ((List.range P).filter (mine r)).length) r ≤ i ↔ r ≤ ρ i := by
    intro r hr
    rw [hdis r hr, length_filter_range]
    simp only [decide_eq_true_eq]
    rw [count_initial hi (fun j k hjk hk h => lt_of_le_of_lt (hmono j k hjk hk) h)]
    omega
  have hnext : ∀ r, displs (fun r => ((List.range P).filter (mine r)).length) r +
      ((List.range P).filter (mine r)).length =
      displs (fun r => ((List.range P).filter (mine r)).length) (r + 1) := by
    intro r
    unfold displs
    rw [List.range_succ (n := r), List.map_append, List.sum_append]
    simp
  unfold allgatherv
  have hpred : ∀ r < P, (displs (fun r => ((List.range P).filter (mine r)).length) r ≤ i ∧
      i < displs (fun r => ((List.range P).filter (mine r)).length) r +
        ((List.range P).filter (mine r)).length) ↔ r = ρ i := by
    intro r hr
    rw [hnext r, hin r (by omega), ← not_le, hin (r + 1) (by omega)]
    omega
  have hfind : (List.range P).find? (fun r =>
      decide (displs (fun r => ((List.range P).filter (mine r)).length) r ≤ i ∧
      i < displs (fun r => ((List.range P).filter (mine r)).length) r +
        ((List.range P).filter (mine r)).length)) = some (ρ i) := by
    cases hf : (List.range P).find? _ with
    | none =>
      rw [List.find?_eq_none] at hf
      exact absurd (decide_eq_true ((hpred (ρ i) (hρ i hi)).2 rfl))
        (hf (ρ i) (List.mem_range.2 (hρ i hi)))
    | some r =>
      have h1 := List.find?_some hf
      have h2 := List.mem_range.1 (List.mem_of_find?_eq_some hf)
      rw [(hpred r h2).1 (of_decide_eq_true h1)]
  rw [hfind]
  rfl

/-! ### Truncated keys are keys of leaves -/

theorem truncKey_le (e m k : ℕ) : truncKey e m k ≤ m := Nat.div_mul_le_self _ _

theorem truncKey_zero (e m : ℕ) : truncKey e m 0 = m := by simp [truncKey]

section
variable {e L T : ℕ} {G : Grid d} {M : Finset (Oct d)} {g : List (Oct d)}

theorem Sorted.trunc_leaf (hs : Sorted e L T G M g) {x : ℕ} (hx : x < g.length) (k : ℕ) :
    ∃ j, ∃ hj : j < g.length, j ≤ x ∧ truncKey e (okey e L g[x]) k = okey e L g[j] := by
  suffices h : ∃ b ∈ M, truncKey e (okey e L g[x]) k = okey e L b by
    obtain ⟨b, hb, hk⟩ := h
    obtain ⟨j, hj, rfl⟩ := List.mem_iff_getElem.1 ((hs.mem b).2 hb)
    refine ⟨j, hj, ?_, hk⟩
    have := truncKey_le e (okey e L g[x]) k
    rw [hk] at this
    by_contra hc
    have := (hs.lt_iff hx hj).2 (by omega)
    omega
  set X := g[x] with hX
  have hXM : X ∈ M := (hs.mem _).1 (List.getElem_mem hx)
  have hvX := hs.tiling.valid X hXM
  have hXL := hs.level X hXM
  by_cases hkL : k ≤ L
  · obtain ⟨n, rfl⟩ := Nat.exists_eq_add_of_le hkL
    rw [Nat.add_comm k n] at *
    set q : Fin d → ℕ := fun i => X.pos i * 2 ^ (n + k - X.level) with hq
    let c : Oct d := ⟨n + k, fun i => q i / 2 ^ k * 2 ^ k⟩
    have hkc : truncKey e (okey e (n + k) X) k = okey e (n + k) c := by
      rw [okey_eq (by exact le_refl _ : c.level ≤ n + k)]
      show truncKey e (zkey d e (n + k) q) k = zkey d e (n + k) c.pos * 2 ^ (e * (n + k - (n + k)))
      unfold truncKey
      rw [zkey_div hs.dim, Nat.sub_self, Nat.mul_zero, pow_zero, Nat.mul_one]
      exact (zkey_mul_pow (d := d) (e := e) n k _).symm
    have hcq : ∀ i, c.pos i ≤ q i := fun i => Nat.div_mul_le_self _ _
    have hXc : Valid G ⟨n + k, q⟩ := by
      refine anc_valid_below hvX (w := ⟨n + k, q⟩) ⟨hXL, fun i => ?_⟩
      show X.pos i * 2 ^ (n + k - X.level) / 2 ^ (n + k - X.level) = _
      rw [Nat.mul_div_cancel _ (by positivity)]
    have hvc : Valid G c := ⟨hXc.1, fun i => lt_of_le_of_lt (hcq i) (hXc.2 i)⟩
    obtain ⟨b, hb, hbc⟩ := hs.tiling.exists_anc hs.wf hvc (fun o ho => hs.level o ho)
    refine ⟨b, hb, ?_⟩
    rw [hkc]
    have hbL := hs.level b hb
    by_cases hbl : n ≤ b.level
    · -- the leaf is inside the block
      unfold okey
      congr 1
      funext i
      have h1 := hbc.2 i
      show c.pos i * 2 ^ (n + k - (n + k)) = _
      rw [Nat.sub_self, pow_zero, Nat.mul_one, ← h1]
      show c.pos i = c.pos i / 2 ^ (n + k - b.level) * 2 ^ (n + k - b.level)
      rw [Nat.div_mul_cancel]
      exact dvd_trans (pow_dvd_pow 2 (by omega)) (Dvd.intro_left _ rfl)
    · -- the leaf contains the block, so it is X
      have hbX : b = X := by
        have h2 : Anc b ⟨n + k, q⟩ := by
          refine ⟨hbL, fun i => ?_⟩
          have h1 := hbc.2 i
          show q i / 2 ^ (n + k - b.level) = b.pos i
          rw [← h1]
          show q i / 2 ^ (n + k - b.level) = (q i / 2 ^ k * 2 ^ k) / 2 ^ (n + k - b.level)
          rw [show n + k - b.level = k + (n - b.level) by omega, pow_add, ← Nat.div_div_eq_div_mul,
            ← Nat.div_div_eq_div_mul, Nat.mul_div_cancel _ (by positivity)]
        have h3 : Anc X ⟨n + k, q⟩ := by
          refine ⟨hXL, fun i => ?_⟩
          show X.pos i * 2 ^ (n + k - X.level) / 2 ^ (n + k - X.level) = _
          rw [Nat.mul_div_cancel _ (by positivity)]
        rcases le_total b.level X.level with h | h
        · exact hs.tiling.eq_of_anc hs.wf hb hXM (h2.linear h3 h)
        · exact (hs.tiling.eq_of_anc hs.wf hXM hb (h3.linear h2 h)).symm
      have h4 := (hbc.okey_le (e := e) hs.dim (L := n + k) (le_refl _)).1
      have h5 := truncKey_le e (okey e (n + k) X) k
      rw [hkc, ← hbX] at h5
      omega
  · -- more levels than the tree has: truncation to 0
    obtain ⟨h1, h2⟩ := hs.first
    refine ⟨g[0], (hs.mem _).1 (List.getElem_mem h1), ?_⟩
    rw [keyAt_of_lt h1] at h2
    rw [h2]
    unfold truncKey
    have h3 : okey e L X < 2 ^ (e * k) := by
      refine lt_of_lt_of_le (zkey_lt hs.dim L _) (Nat.pow_le_pow_right (by norm_num) ?_)
      exact Nat.mul_le_mul_left _ (by omega)
    rw [Nat.div_eq_of_lt h3, Nat.zero_mul]

end

theorem adjust_spec (e prev m : ℕ) : ∀ level, adjust e prev m level ≤ level ∧
    (prev < m → prev < truncKey e m (adjust e prev m level)) ∧
    (adjust e prev m level < level → truncKey e m (adjust e prev m level + 1) ≤ prev) := by
  intro level
  induction level with
  | zero =>
    refine ⟨le_refl _, fun h => ?_, fun h => absurd h (by omega)⟩
    show prev < truncKey e m 0
    rwa [truncKey_zero]
  | succ k ih =>
    unfold adjust
    split
    · rename_i h
      refine ⟨by omega, ih.2.1, fun h1 => ?_⟩
      rcases Nat.lt_or_ge (adjust e prev m k) k with h2 | h2
      · exact ih.2.2 h2
      · have : adjust e prev m k = k := le_antisymm ih.1 h2
        rwa [this]
    · rename_i h
      exact ⟨le_refl _, fun _ => by omega, fun h1 => absurd h1 (by omega)⟩

theorem evenIdx_lt {N P i : ℕ} (hN : 0 < N) (hi : i < P) : evenIdx N P i < N := by
  unfold evenIdx
  rw [Nat.div_lt_iff_lt_mul (by omega)]
  exact Nat.mul_lt_mul_of_pos_left hi hN

theorem evenIdx_mono {N P i j : ℕ} (h : i ≤ j) : evenIdx N P i ≤ evenIdx N P j :=
  Nat.div_le_div_right (Nat.mul_le_mul_left _ h)

theorem evenIdx_strict {N P i : ℕ} (hP : 0 < P) (hN : P ≤ N) :
    evenIdx N P i < evenIdx N P (i + 1) := by
  unfold evenIdx
  rw [Nat.mul_add, Nat.mul_one]
  calc N * i / P < N * i / P + 1 := Nat.lt_succ_self _
    _ = (N * i + P) / P := (Nat.add_div_right _ hP).symm
    _ ≤ (N * i + N) / P := Nat.div_le_div_right (by omega)

/-- The gathered keys are the keys of the octants at evenly spaced indices. -/
theorem rawCuts_eq {e L T : ℕ} {G : Grid d} {M : Finset (Oct d)} {ls : List (List (Oct d))}
    (hs : Sorted e L T G M ls.flatten) {i : ℕ} (hi : i < ls.length) :
    rawCuts e L ls i = some (keyAt e L T ls.flatten (evenIdx ls.flatten.length ls.length i)) := by
  have hN := hs.first.1
  have hex : ∀ i, ∃ r, i < ls.length → r < ls.length ∧
      firstIdx ls r ≤ evenIdx ls.flatten.length ls.length i ∧
      evenIdx ls.flatten.length ls.length i < firstIdx ls (r + 1) := by
    intro i
    by_cases h : i < ls.length
    · obtain ⟨r, hr, h1⟩ := exists_rank ls (evenIdx_lt hN h)
      exact ⟨r, fun _ => ⟨hr, h1⟩⟩
    · exact ⟨0, fun h1 => absurd h1 h⟩
  choose ρ hρ using hex
  have hfm : ∀ r < ls.length, firstIdx ls r ≤ firstIdx ls (r + 1) := fun r hr =>
    firstIdx_le ls (Nat.le_succ r) hr
  unfold rawCuts
  simp only
  rw [allgatherv_spec (fun r i => inRank ls r (evenIdx ls.flatten.length ls.length i)) ρ
    (fun i hi => (hρ i hi).1) ?_ ?_ _ hi]
  · congr 1
    obtain ⟨h1, h2, h3⟩ := hρ i hi
    rw [firstIdx_succ ls h1] at h3
    rw [if_pos (by unfold inRank; exact decide_eq_true ⟨h2, h3⟩)]
    have h4 := getElem_flatten ls h1
      (j := evenIdx ls.flatten.length ls.length i - firstIdx ls (ρ i)) (by omega)
    rw [Nat.add_sub_cancel' h2] at h4
    have hlt := evenIdx_lt (P := ls.length) hN hi
    rw [← h4, keyAt_of_lt hlt, List.getElem?_eq_getElem hlt]
    simp only [Option.elim_some]
    apply mkey_eq
    apply hs.level
    rw [← hs.mem]
    exact List.getElem_mem hlt
  · intro i j hij hj
    obtain ⟨h1, h2, h3⟩ := hρ i (by omega)
    obtain ⟨h4, h5, h6⟩ := hρ j hj
    by_contra hc
    have h7 := firstIdx_le ls (by omega : ρ j + 1 ≤ ρ i) (by omega)
    have h8 := evenIdx_mono (N := ls.flatten.length) (P := ls.length) hij
    omega
  · intro r hr i hi
    obtain ⟨h1, h2, h3⟩ := hρ i hi
    unfold inRank
    rw [decide_eq_true_eq, ← firstIdx_succ ls hr]
    constructor
    · intro h
      exact Owns.unique hfm h1 hr ⟨h2, h3⟩ h
    · rintro rfl
      exact ⟨h2, h3⟩

/-- The new cuts are keys of leaves with strictly increasing indices, at most the even indices. -/
theorem newCut_spec {e L T : ℕ} {G : Grid d} {M : Finset (Oct d)} {g : List (Oct d)}
    (hs : Sorted e L T G M g) {P : ℕ} (level : ℕ) (raw : ℕ → ℕ)
    (hraw : ∀ i < P, raw i = keyAt e L T g (evenIdx g.length P i)) :
    ∀ r < P, ∃ j, ∃ hj : j < g.length, newCut e level raw r = okey e L g[j] ∧
      j ≤ evenIdx g.length P r := by
  have hN := hs.first.1
  intro r hr
  cases r with
  | zero =>
    refine ⟨0, hN, ?_, Nat.zero_le _⟩
    have := hs.first.2
    rw [keyAt_of_lt hN] at this
    rw [this]
    rfl
  | succ r =>
    have hlt := evenIdx_lt (P := P) hN hr
    show ∃ j, ∃ hj : j < g.length, truncKey e (raw (r + 1)) _ = _ ∧ _
    rw [hraw (r + 1) hr, keyAt_of_lt hlt]
    obtain ⟨j, hj, hle, hk⟩ := hs.trunc_leaf hlt
      (adjust e (newCut e level raw r) (okey e L g[evenIdx g.length P (r + 1)]) level)
    exact ⟨j, hj, hk, hle⟩

theorem newCut_lt {e L T : ℕ} {G : Grid d} {M : Finset (Oct d)} {g : List (Oct d)}
    (hs : Sorted e L T G M g) {P : ℕ} (hNP : P ≤ g.length) (level : ℕ) (raw : ℕ → ℕ)
    (hraw : ∀ i < P, raw i = keyAt e L T g (evenIdx g.length P i)) {r : ℕ} (hr : r + 1 < P) :
    newCut e level raw r < newCut e level raw (r + 1) := by
  have hN := hs.first.1
  obtain ⟨j, hj, hk, hle⟩ := newCut_spec hs level raw hraw r (by omega)
  have hlt := evenIdx_lt (P := P) hN hr
  have hstrict := evenIdx_strict (i := r) (by omega : 0 < P) hNP
  have h1 : newCut e level raw r < raw (r + 1) := by
    rw [hk, hraw _ hr, hs.lt_keyAt_iff hj]
    omega
  exact (adjust_spec e _ _ level).2.1 h1

/-! ### Finding the index of a cut -/

theorem lowerBoundLoop_spec (key : ℕ → ℕ) (m n x : ℕ) (hk : ∀ i j, i < j → j < n → key i < key j)
    (hx : x < n) (hxm : key x = m) (b en : ℕ) (hb : b ≤ x) (he : x ≤ en) (hen : en < n) :
    lowerBoundLoop key m b en = x := by
  induction b, en using lowerBoundLoop.induct key m with
  | case1 b en hlt p hp =>
    have hpd : p = b + (en - b) / 2 := rfl
    rw [lowerBoundLoop, if_pos hlt]
    simp only
    rw [if_pos hp]
    show p = x
    rcases Nat.lt_trichotomy p x with h | h | h
    · have := hk p x h hx; omega
    · exact h
    · have := hk x p h (by omega); omega
  | case2 b en hlt p hp1 hp2 ih =>
    have hpd : p = b + (en - b) / 2 := rfl
    rw [lowerBoundLoop, if_pos hlt]
    simp only
    rw [if_neg hp1, if_pos hp2]
    apply ih
    · by_contra hc
      rcases Nat.lt_or_ge x p with h | h
      · have := hk x p h (by omega); omega
      · have : x = p := by omega
        subst this
        exact hp1 hxm
    · exact he
    · exact hen
  | case3 b en hlt p hp1 hp2 ih =>
    have hpd : p = b + (en - b) / 2 := rfl
    rw [lowerBoundLoop, if_pos hlt]
    simp only
    rw [if_neg hp1, if_neg hp2]
    refine ih hb ?_ (by omega)
    by_contra hc
    have := hk p x (by omega) hx
    omega
  | case4 b en hlt =>
    rw [lowerBoundLoop, if_neg hlt]
    omega

/-- `newOct` finds the indices of the cuts. -/
theorem newOct_eq {e L : ℕ} {G : Grid d} {M : Finset (Oct d)} {ls : List (List (Oct d))}
    (hs : Sorted e L (2 ^ 64 - 1) G M ls.flatten) (h0 : ls.getD 0 [] ≠ []) (I J : ℕ → ℕ)
    (hJ : ∀ i < ls.length, J i < ls.flatten.length)
    (hI : ∀ i < ls.length, I i = keyAt e L (2 ^ 64 - 1) ls.flatten (J i))
    (hJm : ∀ i j, i ≤ j → j < ls.length → J i ≤ J j) {i : ℕ} (hi : i < ls.length) :
    newOct e L ls I i = some (J i) := by
  have hex : ∀ i, ∃ r, i < ls.length → r < ls.length ∧
      firstIdx ls r ≤ J i ∧ J i < firstIdx ls (r + 1) := by
    intro i
    by_cases h : i < ls.length
    · obtain ⟨r, hr, h1⟩ := exists_rank ls (hJ i h)
      exact ⟨r, fun _ => ⟨hr, h1⟩⟩
    · exact ⟨0, fun h1 => absurd h1 h⟩
  choose ρ hρ using hex
  have hfm : ∀ r < ls.length, firstIdx ls r ≤ firstIdx ls (r + 1) := fun r hr =>
    firstIdx_le ls (Nat.le_succ r) hr
  have hmine : ∀ r < ls.length, ∀ i < ls.length,
      decide (oldIntervals e L ls r ≤ I i ∧ I i < oldIntervals e L ls (r + 1)) = true ↔ ρ i = r := by
    intro r hr i hi
    obtain ⟨h1, h2, h3⟩ := hρ i hi
    rw [decide_eq_true_eq, hI i hi, keyAt_of_lt (hJ i hi)]
    rw [oldIntervals_eq hs h0 (by omega), oldIntervals_eq hs h0 (by omega),
      hs.keyAt_le_iff (hJ i hi), hs.lt_keyAt_iff (hJ i hi)]
    constructor
    · intro h
      exact Owns.unique hfm h1 hr ⟨h2, h3⟩ h
    · rintro rfl
      exact ⟨h2, h3⟩
  unfold newOct
  simp only
  rw [if_pos hi, allgatherv_spec (fun r i => decide (oldIntervals e L ls r ≤ I i ∧
    I i < oldIntervals e L ls (r + 1))) ρ (fun i hi => (hρ i hi).1) ?_ hmine _ hi]
  · congr 1
    rw [if_pos ((hmine (ρ i) (hρ i hi).1 i hi).2 rfl)]
    obtain ⟨h1, h2, h3⟩ := hρ i hi
    rw [firstIdx_succ ls h1] at h3
    unfold lowerBound
    have hkey : ∀ x, x < (ls.getD (ρ i) []).length →
        ((ls.getD (ρ i) [])[x]?).elim 0 (mkey e L) =
          keyAt e L (2 ^ 64 - 1) ls.flatten (firstIdx ls (ρ i) + x) := by
      intro x hx
      have h4 := getElem_flatten ls h1 hx
      unfold keyAt
      rw [← h4]
      have hlt : firstIdx ls (ρ i) + x < ls.flatten.length := by
        have := firstIdx_le_length ls (by omega : ρ i + 1 ≤ ls.length)
        rw [firstIdx_succ ls h1] at this
        omega
      rw [List.getElem?_eq_getElem hlt]
      simp only [Option.elim_some]
      apply mkey_eq
      apply hs.level
      rw [← hs.mem]
      exact List.getElem_mem hlt
    rw [lowerBoundLoop_spec _ (I i) (ls.getD (ρ i) []).length (J i - firstIdx ls (ρ i)) ?_ (by omega)
      ?_ 0 _ (Nat.zero_le _) (by omega) (by omega)]
    · omega
    · intro x y hxy hy
      rw [hkey x (by omega), hkey y hy]
      have := firstIdx_le_length ls (by omega : ρ i + 1 ≤ ls.length)
      rw [firstIdx_succ ls h1] at this
      rw [keyAt_of_lt (by omega : firstIdx ls (ρ i) + x < ls.flatten.length), hs.lt_keyAt_iff]
      omega
    · rw [hkey _ (by omega), hI i hi]
      congr 1
      omega
  · intro i j hij hj
    obtain ⟨h1, h2, h3⟩ := hρ i (by omega)
    obtain ⟨h4, h5, h6⟩ := hρ j hj
    by_contra hc
    have h7 := firstIdx_le ls (by omega : ρ j + 1 ≤ ρ i) (by omega)
    have h8 := hJm i j hij hj
    omega

/-! ### The exchange -/

theorem sendSize_eq (ls : List (List (Oct d))) (J : ℕ → ℕ) (r s : ℕ) :
    sendSize ls J r s = min (J (s + 1)) (firstIdx ls r + (ls.getD r []).length) -
      max (J s) (firstIdx ls r) := by
  unfold sendSize
  simp only
  split <;> omega

/-- Position in the send list of rank `r` of the part for rank `s`. -/
theorem displs_sendSize (ls : List (List (Oct d))) (J : ℕ → ℕ) (h0 : J 0 = 0) {P : ℕ}
    (hm : ∀ s < P, J s ≤ J (s + 1)) (r : ℕ) : ∀ s ≤ P,
    displs (sendSize ls J r) s = min (J s) (firstIdx ls r + (ls.getD r []).length) -
      firstIdx ls r := by
  intro s
  induction s with
  | zero => intro _; simp [displs, h0]
  | succ s ih =>
    intro hs
    have h1 := ih (by omega)
    have h2 := hm s (by omega)
    have h3 : displs (sendSize ls J r) (s + 1) = displs (sendSize ls J r) s + sendSize ls J r s := by
      unfold displs
      rw [List.range_succ, List.map_append, List.sum_append]
      simp
    rw [h3, h1, sendSize_eq]
    omega

/-- What rank `r` sends to rank `s` is the part of the global list in both ranges. -/
theorem chunk_eq (ls : List (List (Oct d))) (J : ℕ → ℕ) (h0 : J 0 = 0)
    (hm : ∀ s < ls.length, J s ≤ J (s + 1)) {r s : ℕ} (hr : r < ls.length) (hs : s < ls.length) :
    ((ls.getD r []).drop (displs (sendSize ls J r) s)).take (sendSize ls J r s) =
      (ls.flatten.drop (max (J s) (firstIdx ls r))).take
        (min (J (s + 1)) (firstIdx ls (r + 1)) - max (J s) (firstIdx ls r)) := by
  rw [displs_sendSize ls J h0 hm r s (by omega), sendSize_eq, firstIdx_succ ls hr]
  have hms := hm s hs
  apply List.ext_getElem?
  intro j
  set n := (ls.getD r []).length with hn
  set f := firstIdx ls r with hf
  rcases Nat.lt_or_ge j (min (J (s + 1)) (f + n) - max (J s) f) with hj | hj
  · rw [List.getElem?_take_of_lt hj, List.getElem?_take_of_lt hj, List.getElem?_drop,
      List.getElem?_drop, ← getElem_flatten ls hr (by omega)]
    congr 1
    omega
  · rw [List.getElem?_eq_none (by rw [List.length_take]; omega),
      List.getElem?_eq_none (by rw [List.length_take]; omega)]

theorem exchanged_eq (ls : List (List (Oct d))) (J : ℕ → ℕ) (h0 : J 0 = 0)
    (hm : ∀ s < ls.length, J s ≤ J (s + 1)) {s : ℕ} (hs : s < ls.length)
    (hN : J (s + 1) ≤ ls.flatten.length) :
    exchanged ls J s = (ls.flatten.drop (J s)).take (J (s + 1) - J s) := by
  have hms := hm s hs
  have key : ∀ n ≤ ls.length, (List.range n).flatMap (fun r =>
      ((ls.getD r []).drop (displs (sendSize ls J r) s)).take (sendSize ls J r s)) =
      (ls.flatten.drop (J s)).take (min (J (s + 1)) (firstIdx ls n) - J s) := by
    intro n
    induction n with
    | zero => intro _; simp [firstIdx_zero]
    | succ n ih =>
      intro hn
      have hf : firstIdx ls n ≤ firstIdx ls (n + 1) := firstIdx_le ls (Nat.le_succ n) hn
      rw [List.range_succ, List.flatMap_append, ih (by omega), List.flatMap_singleton,
        chunk_eq ls J h0 hm (by omega) hs]
      have hfl := firstIdx_le_length ls hn
      apply List.ext_getElem?
      intro j
      rw [List.getElem?_append]
      simp only [List.length_take, List.length_drop]
      by_cases hj : j < min (J (s + 1)) (firstIdx ls n) - J s
      · rw [if_pos (by omega), List.getElem?_take_of_lt hj, List.getElem?_take_of_lt (by omega)]
      · rw [if_neg (by omega)]
        by_cases hj2 : j < min (J (s + 1)) (firstIdx ls (n + 1)) - J s
        · rw [List.getElem?_take_of_lt (by omega), List.getElem?_take_of_lt hj2, List.getElem?_drop,
            List.getElem?_drop]
          congr 1
          omega
        · rw [List.getElem?_eq_none (by rw [List.length_take, List.length_drop]; omega),
            List.getElem?_eq_none (by rw [List.length_take, List.length_drop]; omega)]
  unfold exchanged
  rw [key ls.length (le_refl _), firstIdx_length, Nat.min_eq_left hN]

/-- Cutting a list at increasing indices and concatenating gives it back. -/
theorem flatten_cuts {α : Type} (g : List α) (J : ℕ → ℕ) (h0 : J 0 = 0) :
    ∀ P, (∀ s < P, J s ≤ J (s + 1)) →
      ((List.range P).map fun s => (g.drop (J s)).take (J (s + 1) - J s)).flatten = g.take (J P) := by
  intro P
  induction P with
  | zero => intro _; simp [h0]
  | succ P ih =>
    intro h
    rw [List.range_succ, List.map_append, List.flatten_append, ih (fun s hs => h s (by omega))]
    simp only [List.map_cons, List.map_nil, List.flatten_cons, List.flatten_nil, List.append_nil]
    have h1 := h P (by omega)
    rw [show J (P + 1) = J P + (J (P + 1) - J P) by omega, List.take_add]
    congr 2
    omega

end Verif.Partition
