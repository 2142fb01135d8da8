import Verif.Octree.Side
import Mathlib.Data.List.Nodup

/-!
# Exactness of the neighbour search: lemmas
-/

namespace Verif.Octree

variable {d : ℕ}

theorem mem_loops {α : Type} {d : ℕ} (l : Fin d → List α) (f : Fin d → α) :
    f ∈ loops l ↔ ∀ i, f i ∈ l i := by
  induction d with
  | zero =>
    simp only [loops, List.mem_singleton]
    exact ⟨fun _ i => i.elim0, fun _ => funext fun i => i.elim0⟩
  | succ d ih =>
    simp only [loops, List.mem_flatMap, List.mem_map]
    constructor
    · rintro ⟨z, hz, g, hg, rfl⟩ i
      induction i using Fin.lastCases with
      | last => simpa using hz
      | cast i => simpa using (ih _ g).1 hg i
    · intro h
      refine ⟨f (Fin.last d), h _, fun i => f i.castSucc, (ih _ _).2 (fun i => h _), ?_⟩
      funext i
      induction i using Fin.lastCases with
      | last => simp
      | cast i => simp

theorem nodup_loops {α : Type} {d : ℕ} (l : Fin d → List α) (h : ∀ i, (l i).Nodup) :
    (loops l).Nodup := by
  induction d with
  | zero => simp [loops]
  | succ d ih =>
    simp only [loops]
    rw [List.nodup_flatMap]
    refine ⟨fun z _ => ?_, ?_⟩
    · refine List.Nodup.map ?_ (ih _ (fun i => h _))
      intro f g hfg
      funext i
      have := congrFun hfg i.castSucc
      simpa using this
    · refine List.Pairwise.imp ?_ (h (Fin.last d))
      intro x y hxy
      simp only [Function.onFun]
      intro f hf hg
      simp only [List.mem_map] at hf hg
      obtain ⟨f1, -, rfl⟩ := hf
      obtain ⟨g1, -, hg⟩ := hg
      have := congrFun hg (Fin.last d)
      simp at this
      exact hxy this.symm

/-- The same-size neighbour. -/
def sameSize (G : Grid d) (a : Oct d) (off : Fin d → SignType) : Oct d :=
  ⟨a.level, neighborPos G a off⟩

theorem sameSize_valid {G : Grid d} (hG : G.Pos) {a : Oct d} (ha : Valid G a)
    (off : Fin d → SignType) : Valid G (sameSize G a off) :=
  ⟨ha.1, fun i => neighborPos_lt hG a off i⟩

theorem dirAdj_coarse {G : Grid d} (hG : G.Pos) {a b : Oct d} (ha : Valid G a) (hb : Valid G b)
    (hl : b.level ≤ a.level) (off : Fin d → SignType) :
    DirAdj G a off b ↔ (∀ i, InDom G a off i) ∧ Anc b (sameSize G a off) := by
  unfold DirAdj
  simp_rw [side_coarse hG ha hb hl off]
  rw [forall_and]
  refine and_congr_right fun _ => ?_
  unfold Anc sameSize
  simp only
  constructor
  · intro h; exact ⟨hl, fun i => (h i).symm⟩
  · rintro ⟨-, h⟩ i; exact (h i).symm

theorem dirAdj_fine {G : Grid d} (hG : G.Pos) {a b : Oct d} (ha : Valid G a) (hb : Valid G b)
    (hl : a.level ≤ b.level) (off : Fin d → SignType) :
    DirAdj G a off b ↔ (∀ i, InDom G a off i) ∧
      ∀ i, Layer (off i) (2 ^ (b.level - a.level)) (neighborPos G a off i) (b.pos i) := by
  unfold DirAdj
  simp_rw [side_fine hG ha hb hl off]
  rw [forall_and]

theorem DirAdj.touch {G : Grid d} (hG : G.Pos) {a b : Oct d} {off : Fin d → SignType}
    (h : DirAdj G a off b) : Touch G a b := by
  intro i
  obtain ⟨s, hs, h⟩ := h i
  refine ⟨s, hs, ?_⟩
  have h1 := lo_lt_hi hG a i
  have h2 := lo_lt_hi hG b i
  cases ho : off i <;> rw [ho] at h <;> simp only [SideAdj] at h <;>
    exact ⟨by linarith [h.1, h.2], by linarith [h.1, h.2]⟩

theorem Touch.symm {G : Grid d} {a b : Oct d} (h : Touch G a b) : Touch G b a := by
  intro i
  obtain ⟨s, hs, h1, h2⟩ := h i
  refine ⟨-s, ?_, by push_cast; linarith, by push_cast; linarith⟩
  rcases hs with rfl | ⟨hp, rfl | rfl⟩
  · exact Or.inl rfl
  · exact Or.inr ⟨hp, Or.inr rfl⟩
  · exact Or.inr ⟨hp, Or.inl (by norm_num)⟩

/-- Adjacency passes to ancestors of the second octant. -/
theorem DirAdj.of_anc {G : Grid d} (hG : G.Pos) {a b c : Oct d} {off : Fin d → SignType}
    (h : DirAdj G a off c) (hbc : Anc b c) (hb : G.lmin ≤ b.level) : DirAdj G a off b := by
  intro i
  obtain ⟨s, hs, h⟩ := h i
  refine ⟨s, hs, ?_⟩
  have h1 := hbc.lo_le hG hb i
  have h2 := hbc.hi_le hG hb i
  cases ho : off i <;> rw [ho] at h <;> simp only [SideAdj] at h ⊢ <;>
    exact ⟨by linarith [h.1, h.2], by linarith [h.1, h.2]⟩

theorem finer_mem_iff (l : ℕ) (p : Fin d → ℕ) (off : Fin d → SignType) (b : Oct d) :
    b ∈ finerNeighbors l p off ↔
      b.level = l + 1 ∧ ∀ i, Layer (off i) 2 (p i) (b.pos i) := by
  unfold finerNeighbors
  simp only [List.mem_map, mem_loops, Nat.shiftLeft_eq, pow_one]
  constructor
  · rintro ⟨s, hs, rfl⟩
    refine ⟨rfl, fun i => ?_⟩
    have := hs i
    unfold Layer
    cases ho : off i <;> rw [ho] at this <;> simp at this <;> simp [this, ho] <;> omega
  · rintro ⟨hl, h⟩
    refine ⟨fun i => b.pos i - (p i * 2 + (if off i = -1 then 1 else 0)), ?_, ?_⟩
    · intro i
      have := h i
      unfold Layer at this
      cases ho : off i <;> rw [ho] at this <;> simp at this <;> simp [ho] <;> omega
    · refine Oct.ext' hl.symm (fun i => ?_)
      have := h i
      unfold Layer at this
      cases ho : off i <;> rw [ho] at this <;> simp at this <;> simp [ho] <;> omega

theorem finer_nodup (l : ℕ) (p : Fin d → ℕ) (off : Fin d → SignType) :
    (finerNeighbors l p off).Nodup := by
  unfold finerNeighbors
  refine List.Nodup.map ?_ (nodup_loops _ (fun i => by split <;> simp))
  intro f g h
  simp only [Oct.mk.injEq, true_and] at h
  funext i
  have := congrFun h i
  omega

/-- In a balanced tiling, a leaf adjacent to the leaf `a` is the same-size neighbour, its parent, or
one of the finer octants next to `a`. -/
theorem dirAdj_cases {G : Grid d} (hG : G.Pos) {M : Finset (Oct d)} (hM : Tiling G M)
    (hB : Balanced G M) {a b : Oct d} (ha : a ∈ M) (hb : b ∈ M) {off : Fin d → SignType}
    (h : DirAdj G a off b) :
    (∀ i, InDom G a off i) ∧
    (b = sameSize G a off ∨
      (b.level + 1 = a.level ∧ Anc b (sameSize G a off)) ∨
      (b.level = a.level + 1 ∧ Anc (sameSize G a off) b ∧
        b ∈ finerNeighbors a.level (neighborPos G a off) off)) := by
  have hva := hM.valid a ha
  have hvb := hM.valid b hb
  have ht := h.touch hG
  have h1 := hB a ha b hb ht
  have h2 := hB b hb a ha ht.symm
  rcases Nat.lt_trichotomy b.level a.level with hl | hl | hl
  · obtain ⟨hd, h3⟩ := (dirAdj_coarse hG hva hvb (le_of_lt hl) off).1 h
    exact ⟨hd, Or.inr (Or.inl ⟨by omega, h3⟩)⟩
  · obtain ⟨hd, h3⟩ := (dirAdj_coarse hG hva hvb (le_of_eq hl) off).1 h
    exact ⟨hd, Or.inl (h3.eq_of_level hl)⟩
  · obtain ⟨hd, h3⟩ := (dirAdj_fine hG hva hvb (le_of_lt hl) off).1 h
    have e : b.level - a.level = 1 := by omega
    refine ⟨hd, Or.inr (Or.inr ⟨by omega, ⟨le_of_lt hl, fun i => ?_⟩, ?_⟩)⟩
    · have := h3 i
      rw [e] at this
      unfold Layer at this
      simp only [sameSize]
      rw [e]
      omega
    · rw [finer_mem_iff]
      refine ⟨by omega, fun i => ?_⟩
      have := h3 i
      rwa [e] at this

/-- Valid octants in the layer next to `a` exist at every finer level, below any given one. -/
theorem exists_layer_below {G : Grid d} (hG : G.Pos) {a v : Oct d} (ha : Valid G a) (hv : Valid G v)
    (hl : a.level ≤ v.level) {off : Fin d → SignType} (h : DirAdj G a off v) (L : ℕ)
    (hL : v.level ≤ L) : ∃ w, w.level = L ∧ Valid G w ∧ Anc v w ∧ DirAdj G a off w := by
  obtain ⟨hd, hlay⟩ := (dirAdj_fine hG ha hv hl off).1 h
  obtain ⟨k, rfl⟩ := Nat.exists_eq_add_of_le hL
  obtain ⟨j, hj⟩ := Nat.exists_eq_add_of_le hl
  have hk : 0 < 2 ^ k := by positivity
  let w : Oct d := ⟨v.level + k, fun i => v.pos i * 2 ^ k + (if off i = -1 then 2 ^ k - 1 else 0)⟩
  have hwpos : ∀ i, v.pos i * 2 ^ k ≤ w.pos i ∧ w.pos i < v.pos i * 2 ^ k + 2 ^ k := by
    intro i
    simp only [w]
    split <;> omega
  have hw : Valid G w := by
    refine ⟨le_trans hv.1 (Nat.le_add_right _ _), fun i => ?_⟩
    have h1 := hwpos i
    have h2 := Nat.mul_le_mul_right (2 ^ k) (Nat.succ_le_of_lt (hv.2 i))
    rw [← count_add G i k hv.1, Nat.succ_mul] at h2
    simp only [w] at h1 ⊢
    omega
  have hanc : Anc v w := by
    refine ⟨Nat.le_add_right _ _, fun i => ?_⟩
    have h1 := hwpos i
    have : w.level - v.level = k := by simp [w]
    rw [this, Nat.div_eq_iff hk]
    omega
  refine ⟨w, rfl, hw, hanc, ?_⟩
  rw [dirAdj_fine hG ha hw (le_trans hl hanc.1)]
  refine ⟨hd, fun i => ?_⟩
  have h3 := hlay i
  have e1 : v.level - a.level = j := by omega
  have e2 : w.level - a.level = j + k := by simp only [w]; omega
  rw [e1] at h3
  rw [e2]
  unfold Layer at h3 ⊢
  have h4 := hwpos i
  have e3 : neighborPos G a off i * 2 ^ (j + k) = (neighborPos G a off i * 2 ^ j) * 2 ^ k := by
    rw [pow_add, Nat.mul_assoc]
  rw [e3, pow_add]
  generalize neighborPos G a off i * 2 ^ j = P at *
  generalize 2 ^ j = J at *
  have h5 : P * 2 ^ k ≤ v.pos i * 2 ^ k := Nat.mul_le_mul_right _ h3.1
  have h6 : v.pos i * 2 ^ k + 2 ^ k ≤ P * 2 ^ k + J * 2 ^ k := by
    have := Nat.mul_le_mul_right (2 ^ k) (Nat.succ_le_of_lt h3.2.1)
    rwa [Nat.succ_mul, Nat.add_mul] at this
  refine ⟨by omega, by omega, fun ho => ?_, fun ho => ?_⟩
  · have := h3.2.2.1 ho
    have hno : off i ≠ -1 := by rw [ho]; decide
    simp only [w, hno, if_false, Nat.add_zero]
    rw [this]
  · have := h3.2.2.2 ho
    simp only [w, ho, if_true]
    have h7 : v.pos i * 2 ^ k + 2 ^ k = P * 2 ^ k + J * 2 ^ k := by
      rw [← Nat.succ_mul, ← Nat.add_mul, ← this]
    omega

/-- The neighbour search on a balanced tiling. -/
theorem findNeighbors_spec {G : Grid d} (hG : G.Pos) {M : Finset (Oct d)} (hM : Tiling G M)
    (hB : Balanced G M) {a : Oct d} (ha : a ∈ M) (off : Fin d → SignType) (hoff : ¬ ∀ i, off i = 0) :
    ∃ ns, findNeighbors G M a off = some ns ∧ ns.Nodup ∧
      ∀ b, b ∈ ns ↔ (b ∈ M ∧ DirAdj G a off b) := by
  have hva := hM.valid a ha
  unfold findNeighbors
  rw [if_neg hoff]
  by_cases hbd : isBoundary G a off = true
  · rw [if_pos hbd]
    refine ⟨[], rfl, List.nodup_nil, fun b => ?_⟩
    simp only [List.not_mem_nil, false_iff, not_and]
    intro hb h
    have := (dirAdj_cases hG hM hB ha hb h).1
    rw [← isBoundary_iff hG, hbd] at this
    exact Bool.noConfusion this
  · rw [if_neg hbd]
    have hin : ∀ i, InDom G a off i := (isBoundary_iff hG a off).1 (by simpa using hbd)
    have hvc := sameSize_valid hG hva off
    have hc : DirAdj G a off (sameSize G a off) :=
      (dirAdj_coarse hG hva hvc (le_refl _) off).2 ⟨hin, Anc.refl _⟩
    simp only
    by_cases h1 : sameSize G a off ∈ M
    · have h1' : (⟨a.level, neighborPos G a off⟩ : Oct d) ∈ M := h1
      rw [if_pos h1']
      refine ⟨_, rfl, by simp, fun b => ?_⟩
      simp only [List.mem_singleton]
      constructor
      · rintro rfl; exact ⟨h1, hc⟩
      · rintro ⟨hb, h⟩
        rcases (dirAdj_cases hG hM hB ha hb h).2 with h2 | ⟨h2, h3⟩ | ⟨h2, h3, -⟩
        · exact h2
        · exact hM.eq_of_anc hG hb h1 h3
        · exact (hM.eq_of_anc hG h1 hb h3).symm
    · have h1' : ¬ (⟨a.level, neighborPos G a off⟩ : Oct d) ∈ M := h1
      rw [if_neg h1']
      let p : Oct d := ⟨a.level - 1, fun i => neighborPos G a off i >>> 1⟩
      have hp : 1 ≤ a.level → Anc p (sameSize G a off) := by
        intro hl
        refine ⟨Nat.sub_le _ _, fun i => ?_⟩
        have : (sameSize G a off).level - p.level = 1 := by simp only [sameSize, p]; omega
        rw [this]
        simp [sameSize, p, Nat.shiftRight_eq_div_pow]
      by_cases h2 : 1 ≤ a.level ∧ p ∈ M
      · have h2' : 1 ≤ a.level ∧ (⟨a.level - 1, fun i => neighborPos G a off i >>> 1⟩ : Oct d) ∈ M := h2
        rw [if_pos h2']
        refine ⟨_, rfl, by simp, fun b => ?_⟩
        simp only [List.mem_singleton]
        constructor
        · rintro rfl
          exact ⟨h2.2, (hc.of_anc hG (hp h2.1) (hM.valid _ h2.2).1)⟩
        · rintro ⟨hb, h⟩
          rcases (dirAdj_cases hG hM hB ha hb h).2 with h3 | ⟨h3, h4⟩ | ⟨h3, h4, -⟩
          · exact absurd (h3 ▸ hb) h1
          · have hlev : b.level ≤ p.level := by simp only [p]; omega
            exact hM.eq_of_anc hG hb h2.2 (h4.linear (hp h2.1) hlev)
          · exact (hM.eq_of_anc hG h2.2 hb ((hp h2.1).trans h4)).symm
      · have h2' : ¬ (1 ≤ a.level ∧ (⟨a.level - 1, fun i => neighborPos G a off i >>> 1⟩ : Oct d) ∈ M) := h2
        rw [if_neg h2']
        -- a leaf adjacent to `a` is one of the finer octants
        have hfin : ∀ b ∈ M, DirAdj G a off b →
            b.level = a.level + 1 ∧ Anc (sameSize G a off) b ∧
              b ∈ finerNeighbors a.level (neighborPos G a off) off := by
          intro b hb h
          rcases (dirAdj_cases hG hM hB ha hb h).2 with h3 | ⟨h3, h4⟩ | h5
          · exact absurd (h3 ▸ hb) h1
          · exfalso
            apply h2
            have hl : 1 ≤ a.level := by omega
            refine ⟨hl, ?_⟩
            have : b = p := (h4.linear (hp hl) (by simp only [p]; omega)).eq_of_level
              (by simp only [p]; omega)
            exact this ▸ hb
          · exact h5
        -- every finer octant next to `a` is a leaf
        have hall : ∀ v ∈ finerNeighbors a.level (neighborPos G a off) off,
            v ∈ M ∧ DirAdj G a off v := by
          intro v hv
          obtain ⟨hvl, hlay⟩ := (finer_mem_iff _ _ _ _).1 hv
          have hvv : Valid G v := by
            refine ⟨by have := hva.1; omega, fun i => ?_⟩
            have h3 := hlay i
            unfold Layer at h3
            have h4 := neighborPos_lt hG a off i
            rw [hvl, count_add G i 1 hva.1]
            omega
          have hadj : DirAdj G a off v := by
            rw [dirAdj_fine hG hva hvv (by omega)]
            refine ⟨hin, fun i => ?_⟩
            have e : v.level - a.level = 1 := by omega
            rw [e]; exact hlay i
          obtain ⟨w, hwL, hwv, hvw, hwa⟩ := exists_layer_below hG hva hvv (by omega) hadj
            (max v.level (M.sup Oct.level)) (le_max_left _ _)
          obtain ⟨b, hb, hbw⟩ := hM.exists_anc hG hwv (fun b hb => by
            rw [hwL]; exact le_trans (Finset.le_sup (f := Oct.level) hb) (le_max_right _ _))
          have hab := hwa.of_anc hG hbw (hM.valid b hb).1
          have hbl := (hfin b hb hab).1
          have : b = v := (hbw.linear hvw (by omega)).eq_of_level (by omega)
          rw [← this]
          exact ⟨hb, hab⟩
        rw [if_pos (fun b hb => (hall b hb).1)]
        refine ⟨_, rfl, finer_nodup _ _ _, fun b => ?_⟩
        constructor
        · exact hall b
        · rintro ⟨hb, h⟩
          exact (hfin b hb h).2.2

end Verif.Octree
