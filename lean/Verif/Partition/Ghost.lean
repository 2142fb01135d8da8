import Verif.Partition.Model
import Verif.Partition.Spec
import Verif.Octree.Symm
import Verif.Adapt.Check

/-!
# Rank search and ghost discovery
-/

namespace Verif.Partition

open Verif.Octree Verif.Morton Verif.Adapt

variable {d : ℕ}

theorem upperBound_spec (I : ℕ → ℕ) (m P : ℕ) (hI : ∀ i j, i ≤ j → j < P → I i ≤ I j)
    (b en : ℕ) (hb : ∀ i, i < b → I i ≤ m) (he : ∀ i, en ≤ i → i < P → m < I i)
    (hbe : b ≤ en) (hP : en ≤ P) :
    (∀ i, i < upperBound I m b en → I i ≤ m) ∧
      (∀ i, upperBound I m b en ≤ i → i < P → m < I i) ∧ upperBound I m b en ≤ en := by
  induction b, en using upperBound.induct I m with
  | case1 b en hlt p hp ih =>
    have hpd : p = b + (en - b) / 2 := rfl
    rw [upperBound, if_pos hlt]
    simp only
    rw [if_pos hp]
    refine ih (fun i hi => ?_) he (by omega) hP
    exact le_trans (hI i p (by omega) (by omega)) hp
  | case2 b en hlt p hp ih =>
    have hpd : p = b + (en - b) / 2 := rfl
    rw [upperBound, if_pos hlt]
    simp only
    rw [if_neg hp]
    obtain ⟨h1, h2, h3⟩ := ih hb (fun i hi hiP => lt_of_lt_of_le (not_le.1 hp) (hI p i hi hiP))
      (by omega) (by omega)
    exact ⟨h1, h2, le_trans h3 (by omega)⟩
  | case3 b en hlt =>
    rw [upperBound, if_neg hlt]
    have : b = en := by omega
    exact ⟨hb, this ▸ he, this ▸ le_refl _⟩

theorem mono_of_step {P : ℕ} {I : ℕ → ℕ} (h : ∀ r < P, I r ≤ I (r + 1)) :
    ∀ i j, i ≤ j → j ≤ P → I i ≤ I j := by
  intro i j hij hj
  induction j, hij using Nat.le_induction with
  | base => exact le_refl _
  | succ j hij ih => exact le_trans (ih (by omega)) (h j (by omega))

theorem upperBound_owner {P : ℕ} {I : ℕ → ℕ} (h : ∀ r < P, I r ≤ I (r + 1)) {r m : ℕ} (hr : r < P)
    (ho : Owns I r m) : upperBound I m 0 P = r + 1 := by
  have hm := mono_of_step h
  obtain ⟨h1, h2, h3⟩ := upperBound_spec I m P (fun i j hij hj => hm i j hij (le_of_lt hj)) 0 P
    (fun i hi => absurd hi (by omega)) (fun i hi hiP => absurd hi (by omega)) (Nat.zero_le _)
    (le_refl _)
  generalize upperBound I m 0 P = u at *
  rcases Nat.lt_trichotomy u (r + 1) with hlt | heq | hgt
  · have := h2 r (by omega) hr
    exact absurd ho.1 (by omega)
  · exact heq
  · have := h1 (r + 1) hgt
    exact absurd ho.2 (by omega)

theorem findRank_owner {P : ℕ} {I : ℕ → ℕ} (h : ∀ r < P, I r ≤ I (r + 1)) {r m : ℕ} (hr : r < P)
    (ho : Owns I r m) : findRank I P m = r := by
  unfold findRank
  rw [upperBound_owner h hr ho]
  push_cast; ring

theorem Owns.unique {P : ℕ} {I : ℕ → ℕ} (h : ∀ r < P, I r ≤ I (r + 1)) {r s m : ℕ} (hr : r < P)
    (hs : s < P) (h1 : Owns I r m) (h2 : Owns I s m) : r = s := by
  have := upperBound_owner h hr h1
  rw [upperBound_owner h hs h2] at this
  omega

theorem exists_owns {P : ℕ} {I : ℕ → ℕ} (h0 : I 0 = 0) {m : ℕ} (hm : m < I P) :
    ∃ r < P, Owns I r m := by
  induction P with
  | zero => omega
  | succ P ih =>
    by_cases hc : m < I P
    · obtain ⟨r, hr, ho⟩ := ih hc
      exact ⟨r, by omega, ho⟩
    · exact ⟨P, by omega, by omega, hm⟩

theorem mkey_eq {e L : ℕ} {o : Oct d} (h : o.level ≤ L) : mkey e L o = okey e L o := by
  unfold mkey shiftKey
  rw [if_pos h, okey_eq h]

/-- An octant one level too fine gets the key of its parent. -/
theorem mkey_below {e L : ℕ} (hde : d ≤ e) {n w : Oct d} (hn : n.level = L) (hw : w.level = L + 1)
    (h : Anc n w) : mkey e L w = okey e L n := by
  unfold mkey shiftKey
  rw [if_neg (by omega), okey_eq (by omega), hn, hw]
  have h1 := zkey_div hde L 1 w.pos
  rw [show L + 1 - L = 1 by omega, h1, Nat.sub_self, Nat.mul_zero, pow_zero, Nat.mul_one]
  congr 1
  funext i
  have := h.2 i
  rwa [hn, hw, show L + 1 - L = 1 by omega] at this

/-- The end of the block of the same-size neighbour. -/
theorem next_eq {e L : ℕ} {n : Oct d} (h : n.level ≤ L) :
    shiftKey e (shiftKey e (mkey e L n) L n.level + 1) n.level L = oend e L n := by
  rw [mkey_eq h, okey_eq h, oend_eq h]
  have h1 : shiftKey e (zkey d e n.level n.pos * 2 ^ (e * (L - n.level))) L n.level =
      zkey d e n.level n.pos := by
    unfold shiftKey
    split
    · have : L = n.level := by omega
      subst this
      simp
    · rw [Nat.mul_div_cancel _ (by positivity)]
  rw [h1]
  unfold shiftKey
  rw [if_pos h]

theorem wrapPos_eq (G : Grid d) (a : Oct d) (off : Fin d → SignType) :
    wrapPos G a off = neighborPos G a off := by
  funext i
  unfold wrapPos neighborPos
  rw [show (a.pos i : ℤ) + (off i : ℤ) + cellCount G i a.level =
    (a.pos i : ℤ) + cellCount G i a.level + (off i : ℤ) by ring]

theorem insideDomain_iff (G : Grid d) (a : Oct d) (off : Fin d → SignType) :
    insideDomain G a off = true ↔ ∀ i, InDom G a off i := by
  unfold insideDomain InDom
  rw [decide_eq_true_eq]
  simp only [cellCount_eq]

theorem subOctants_eq (l : ℕ) (p : Fin d → ℕ) (off : Fin d → SignType) :
    subOctants l p off = finerNeighbors l p off := rfl

theorem finer_anc {G : Grid d} {a w : Oct d} {off : Fin d → SignType}
    (hw : w ∈ finerNeighbors a.level (neighborPos G a off) off) : Anc (sameSize G a off) w := by
  obtain ⟨hl, hlay⟩ := (finer_mem_iff _ _ _ _).1 hw
  refine ⟨by simp [sameSize]; omega, fun i => ?_⟩
  have := hlay i
  unfold Layer at this
  simp only [sameSize]
  rw [show w.level - a.level = 1 by omega]
  omega

theorem finer_nonempty (l : ℕ) (p : Fin d → ℕ) (off : Fin d → SignType) :
    ∃ w, w ∈ finerNeighbors l p off := by
  refine ⟨⟨l + 1, fun i => p i * 2 + (if off i = -1 then 1 else 0)⟩, ?_⟩
  rw [finer_mem_iff]
  refine ⟨rfl, fun i => ?_⟩
  unfold Layer
  cases ho : off i <;> simp [ho] <;> decide

theorem anc_valid_below {G : Grid d} {n w : Oct d} (hn : Valid G n) (h : Anc n w) : Valid G w := by
  refine ⟨le_trans hn.1 h.1, fun i => ?_⟩
  have h1 := hn.2 i
  have h2 : n.level + (w.level - n.level) = w.level := by have := h.1; omega
  have h3 := count_add G i (w.level - n.level) hn.1
  rw [h2] at h3
  rw [h3]
  have h4 := h.2 i
  have h5 : w.pos i < (n.pos i + 1) * 2 ^ (w.level - n.level) := by
    rw [← h4]
    rw [Nat.add_one_mul]
    exact Nat.lt_div_mul_add (by positivity)
  exact lt_of_lt_of_le h5 (Nat.mul_le_mul_right _ h1)

/-- The key looked up for a suboctant of the same-size neighbour lies in a leaf next to `a`, and in
the block of the same-size neighbour. -/
theorem sub_leaf {G : Grid d} (hG : G.WF) {M : Finset (Oct d)} (hM : Tiling G M) (hB : Balanced G M)
    {e L : ℕ} (hde : d ≤ e) (hL : ∀ b ∈ M, b.level ≤ L) {a : Oct d} (ha : a ∈ M)
    {off : Fin d → SignType} (hin : ∀ i, InDom G a off i) {w : Oct d}
    (hw : w ∈ finerNeighbors a.level (neighborPos G a off) off) :
    (okey e L (sameSize G a off) ≤ mkey e L w ∧ mkey e L w < oend e L (sameSize G a off)) ∧
    ∃ c ∈ M, DirAdj G a off c ∧ okey e L c ≤ mkey e L w ∧ mkey e L w < oend e L c := by
  have hva := hM.valid a ha
  have hn := finer_anc hw
  have hvn := sameSize_valid hG hva off
  have hvw := anc_valid_below hvn hn
  have hlev : (sameSize G a off).level = a.level := rfl
  obtain ⟨hwl, hlay⟩ := (finer_mem_iff _ _ _ _).1 hw
  have hdn : DirAdj G a off (sameSize G a off) :=
    (dirAdj_coarse hG hva hvn (le_refl _) off).2 ⟨hin, Anc.refl _⟩
  have haL := hL a ha
  rcases Nat.lt_or_ge a.level L with hlt | hge
  · have hk : mkey e L w = okey e L w := mkey_eq (by omega)
    rw [hk]
    have h1 := hn.okey_le (e := e) hde (L := L) (by omega)
    refine ⟨⟨h1.1, lt_of_lt_of_le (okey_lt_oend _ _ _) h1.2⟩, ?_⟩
    have hdw : DirAdj G a off w := by
      rw [dirAdj_fine hG hva hvw (by omega)]
      refine ⟨hin, fun i => ?_⟩
      rw [show w.level - a.level = 1 by omega]
      exact hlay i
    obtain ⟨x, hxl, hvx, hwx, hdx⟩ := exists_layer_below hG hva hvw (by omega) hdw L (by omega)
    obtain ⟨c, hc, hcx⟩ := hM.exists_anc hG hvx (fun b hb => by rw [hxl]; exact hL b hb)
    have hdc := hdx.of_anc hG hcx (hM.valid c hc).1
    have hcl := hB c hc a ha (hdc.touch hG).symm
    have hcw : Anc c w := hcx.linear hwx (by omega)
    have h2 := hcw.okey_le (e := e) hde (L := L) (by omega)
    exact ⟨c, hc, hdc, h2.1, lt_of_lt_of_le (okey_lt_oend _ _ _) h2.2⟩
  · have hk : mkey e L w = okey e L (sameSize G a off) :=
      mkey_below hde (by omega) (by omega) hn
    rw [hk]
    refine ⟨⟨le_refl _, okey_lt_oend _ _ _⟩, ?_⟩
    obtain ⟨c, hc, hcn⟩ := hM.exists_anc hG hvn (fun b hb => by
      have := hL b hb; omega)
    have h2 := hcn.okey_le (e := e) hde (L := L) (by omega)
    exact ⟨c, hc, hdn.of_anc hG hcn (hM.valid c hc).1, h2.1,
      lt_of_lt_of_le (okey_lt_oend _ _ _) h2.2⟩

theorem Cuts.owns_of_mem {e L P : ℕ} {M : Finset (Oct d)} {I : ℕ → ℕ} (hc : Cuts e L M P I)
    {s : ℕ} (hs : s < P) {b : Oct d} (hb : b ∈ M) (ho : Owns I s (okey e L b)) {m : ℕ}
    (h1 : okey e L b ≤ m) (h2 : m < oend e L b) : Owns I s m :=
  ⟨le_trans ho.1 h1, lt_of_lt_of_le h2 (hc.cut (s + 1) (by omega) b hb ho.2)⟩

theorem Cuts.exists_owner {e L P : ℕ} {M : Finset (Oct d)} {I : ℕ → ℕ} (hc : Cuts e L M P I)
    {b : Oct d} (hb : b ∈ M) : ∃ r < P, Owns I r (okey e L b) :=
  exists_owns hc.zero (hc.top b hb)

/-- One direction registers exactly the owners of the leaves adjacent in that direction. -/
theorem registerDir_iff {G : Grid d} (hG : G.WF) {M : Finset (Oct d)} (hM : Tiling G M)
    (hB : Balanced G M) {e L P : ℕ} (hde : d ≤ e) (hL : ∀ b ∈ M, b.level ≤ L) {I : ℕ → ℕ}
    (hc : Cuts e L M P I) {a : Oct d} (ha : a ∈ M) (off : Fin d → SignType) (k : ℤ) :
    k ∈ registerDir e L G I P a off ↔
      ∃ s < P, k = s ∧ ∃ b ∈ M, DirAdj G a off b ∧ Owns I s (okey e L b) := by
  have hva := hM.valid a ha
  have haL := hL a ha
  have hn : (⟨a.level, wrapPos G a off⟩ : Oct d) = sameSize G a off := by
    rw [wrapPos_eq]; rfl
  have hlev : (sameSize G a off).level = a.level := rfl
  have hvn := sameSize_valid hG hva off
  unfold registerDir
  by_cases hin : ∀ i, InDom G a off i
  swap
  · rw [if_neg (by rw [insideDomain_iff]; exact hin)]
    simp only [List.not_mem_nil, false_iff]
    rintro ⟨s, -, -, b, hb, hd, -⟩
    exact hin (dirAdj_cases hG hM hB ha hb hd).1
  rw [if_pos ((insideDomain_iff G a off).2 hin)]
  simp only [hn]
  have hnx := next_eq (e := e) (L := L) (n := sameSize G a off) (by omega)
  rw [hlev] at hnx
  rw [hnx, wrapPos_eq, subOctants_eq,
    mkey_eq (by omega : (sameSize G a off).level ≤ L)]
  split
  · rename_i hcond
    obtain ⟨hlt, hnext⟩ := hcond
    -- the whole block has one owner
    obtain ⟨w, hw⟩ := finer_nonempty a.level (neighborPos G a off) off
    obtain ⟨hblk, c, hcM, hdc, h1, h2⟩ := sub_leaf hG hM hB hde hL ha hin hw
    obtain ⟨s, hs, hos⟩ := hc.exists_owner hcM
    have hosw := hc.owns_of_mem hs hcM hos h1 h2
    -- owner of the lowest key of the block
    have htop : okey e L (sameSize G a off) < I P := by
      have := hc.cut P (le_refl _) c hcM (hc.top c hcM)
      omega
    obtain ⟨r, hr, hor⟩ := exists_owns hc.zero htop
    rw [findRank_owner hc.mono hr hor]
    rw [upperBound_owner hc.mono hr hor] at hnext
    have hblock : ∀ m, okey e L (sameSize G a off) ≤ m → m < oend e L (sameSize G a off) →
        Owns I r m := fun m h3 h4 => ⟨le_trans hor.1 h3, lt_trans h4 hnext⟩
    have hrs : r = s := Owns.unique hc.mono hr hs (hblock _ hblk.1 hblk.2) hosw
    simp only [List.mem_singleton]
    constructor
    · rintro rfl
      exact ⟨r, hr, rfl, c, hcM, hdc, hrs ▸ hos⟩
    · rintro ⟨t, ht, rfl, b, hb, hd, hot⟩
      have : r = t := by
        rcases (dirAdj_cases hG hM hB ha hb hd).2 with rfl | ⟨-, hanc⟩ | ⟨hbl, hanc, -⟩
        · exact Owns.unique hc.mono hr ht hor hot
        · have h3 := hanc.okey_le (e := e) hde (L := L) (by omega)
          exact Owns.unique hc.mono hr ht hor (hc.owns_of_mem ht hb hot h3.1
            (lt_of_lt_of_le (okey_lt_oend _ _ _) h3.2))
        · have h3 := hanc.okey_le (e := e) hde (L := L) (hL b hb)
          exact Owns.unique hc.mono hr ht
            (hblock _ h3.1 (lt_of_lt_of_le (okey_lt_oend _ _ _) h3.2)) hot
      rw [this]
  · rename_i hcond
    simp only [List.mem_map]
    constructor
    · rintro ⟨w, hw, rfl⟩
      obtain ⟨-, c, hcM, hdc, h1, h2⟩ := sub_leaf hG hM hB hde hL ha hin hw
      obtain ⟨s, hs, hos⟩ := hc.exists_owner hcM
      exact ⟨s, hs, findRank_owner hc.mono hs (hc.owns_of_mem hs hcM hos h1 h2), c, hcM, hdc, hos⟩
    · rintro ⟨t, ht, rfl, b, hb, hd, hot⟩
      rcases (dirAdj_cases hG hM hB ha hb hd).2 with heq | ⟨-, hanc⟩ | ⟨hbl, hanc, hbf⟩
      · obtain ⟨w, hw⟩ := finer_nonempty a.level (neighborPos G a off) off
        obtain ⟨hblk, -⟩ := sub_leaf hG hM hB hde hL ha hin hw
        rw [← heq] at hblk
        exact ⟨w, hw, findRank_owner hc.mono ht (hc.owns_of_mem ht hb hot hblk.1 hblk.2)⟩
      · obtain ⟨w, hw⟩ := finer_nonempty a.level (neighborPos G a off) off
        obtain ⟨hblk, -⟩ := sub_leaf hG hM hB hde hL ha hin hw
        have h3 := hanc.okey_le (e := e) hde (L := L) (by omega)
        exact ⟨w, hw, findRank_owner hc.mono ht (hc.owns_of_mem ht hb hot
          (le_trans h3.1 hblk.1) (lt_of_lt_of_le hblk.2 h3.2))⟩
      · exact ⟨b, hbf, by rw [mkey_eq (hL b hb)]; exact findRank_owner hc.mono ht hot⟩

theorem ghostRanks_iff {G : Grid d} (hG : G.WF) {M : Finset (Oct d)} (hM : Tiling G M)
    (hB : Balanced G M) {e L P : ℕ} (hde : d ≤ e) (hL : ∀ b ∈ M, b.level ≤ L) {I : ℕ → ℕ}
    (hc : Cuts e L M P I) {a : Oct d} (ha : a ∈ M) {r : ℕ} (hr : r < P)
    (hor : Owns I r (okey e L a)) (k : ℤ) :
    k ∈ ghostRanks e L G I P r a ↔
      ∃ s < P, k = s ∧ s ≠ r ∧ ∃ b ∈ M, Touch G a b ∧ Owns I s (okey e L b) := by
  unfold ghostRanks
  simp only [List.mem_filter, List.mem_flatMap, mem_directions, decide_eq_true_eq]
  constructor
  · rintro ⟨⟨off, -, hk⟩, hne⟩
    obtain ⟨s, hs, rfl, b, hb, hd, ho⟩ := (registerDir_iff hG hM hB hde hL hc ha off k).1 hk
    exact ⟨s, hs, rfl, by exact_mod_cast hne, b, hb, hd.touch hG, ho⟩
  · rintro ⟨s, hs, rfl, hne, b, hb, ht, ho⟩
    refine ⟨?_, by exact_mod_cast hne⟩
    have hab : a ≠ b := fun h => hne (Owns.unique hc.mono hs hr (h ▸ ho) hor)
    obtain ⟨off, hoff, hd⟩ := hM.exists_dir hG ha hb hab ht
    exact ⟨off, hoff, (registerDir_iff hG hM hB hde hL hc ha off s).2 ⟨s, hs, rfl, b, hb, hd, ho⟩⟩

end Verif.Partition
