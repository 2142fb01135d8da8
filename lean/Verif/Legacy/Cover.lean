import Verif.Legacy.Model
import Verif.Legacy.Spec

/-!
# The loops over the borders visit every ghost cell once
-/

namespace Verif.Legacy

open Verif.Octree Verif.Cells Verif.Legacy.Spec

variable {d : ℕ}

theorem indexToCoord_symm (s : Fin d → ℕ) (n : Fin (∏ i, s i)) (i : Fin d) :
    indexToCoord s n i = (finPiFinEquiv.symm n i : ℕ) := rfl

theorem indexToCoord_lt {s : Fin d → ℕ} {n : ℕ} (h : n < ∏ i, s i) (i : Fin d) :
    indexToCoord s n i < s i := by
  rw [show n = ((⟨n, h⟩ : Fin (∏ i, s i)) : ℕ) from rfl, indexToCoord_symm]
  exact Fin.is_lt _

theorem indexToCoord_surj {s : Fin d → ℕ} (c : Fin d → ℕ) (h : ∀ i, c i < s i) :
    ∃ n, n < ∏ i, s i ∧ indexToCoord s n = c := by
  refine ⟨finPiFinEquiv fun i => ⟨c i, h i⟩, Fin.is_lt _, funext fun i => ?_⟩
  rw [indexToCoord_symm, Equiv.symm_apply_apply]

theorem indexToCoord_inj {s : Fin d → ℕ} {m n : ℕ} (hm : m < ∏ i, s i) (hn : n < ∏ i, s i)
    (h : indexToCoord s m = indexToCoord s n) : m = n := by
  have : (finPiFinEquiv.symm (⟨m, hm⟩ : Fin (∏ i, s i))) = finPiFinEquiv.symm ⟨n, hn⟩ := by
    funext i
    apply Fin.ext
    rw [← indexToCoord_symm, ← indexToCoord_symm]
    exact congrFun h i
  have := finPiFinEquiv.symm.injective this
  exact congrArg Fin.val this

/-- The position that `getPos` makes of a side and of border coordinates. -/
def borderPos (P : Par d) (k : Fin d) (right : Bool) (c : Fin d → ℕ) (i : Fin d) : ℤ :=
  c i + borderOrigin P k i + (if right = true ∧ i = k then (P.w + P.b k : ℤ) else 0)

theorem getPos_eq_some {P : Par d} {k : Fin d} {index : ℕ} {q : Pos d}
    (h : getPos P k index = some q) :
    q = ⟨q.inLocal, neighborOf P q.inLocal, inNeighborOf P q.inLocal⟩ ∧
    ∃ (right : Bool) (n : ℕ), n < nbFace P k ∧
      index = n + (if right then nbFace P k else 0) ∧
      q.inLocal = borderPos P k right (indexToCoord (borderSize P k) n) := by
  unfold getPos at h
  split_ifs at h with h1
  simp only [Option.some.injEq] at h
  subst h
  refine ⟨rfl, decide (nbFace P k ≤ index), if nbFace P k ≤ index then index - nbFace P k else index,
    ?_, ?_, ?_⟩
  · split <;> omega
  · by_cases h2 : nbFace P k ≤ index <;> simp [h2]
  · funext i
    unfold borderPos
    simp

theorem getPos_of {P : Par d} {k : Fin d} (right : Bool) {n : ℕ} (hn : n < nbFace P k) :
    ∃ q, getPos P k (n + if right then nbFace P k else 0) = some q ∧
      q.inLocal = borderPos P k right (indexToCoord (borderSize P k) n) := by
  unfold getPos
  cases right
  · rw [if_pos (by simp; omega)]
    refine ⟨_, rfl, ?_⟩
    funext i
    have : ¬ nbFace P k ≤ n := by omega
    simp [borderPos, this]
  · rw [if_pos (by simp; omega)]
    refine ⟨_, rfl, ?_⟩
    funext i
    simp [borderPos]

theorem borderPos_bounds {P : Par d} {k : Fin d} {right : Bool} {c : Fin d → ℕ}
    (hc : ∀ i, c i < borderSize P k i) (i : Fin d) :
    -(P.w : ℤ) ≤ borderPos P k right c i ∧ borderPos P k right c i < P.b i + P.w ∧
    (k < i → 0 ≤ borderPos P k right c i ∧ borderPos P k right c i < P.b i) := by
  have h := hc i
  unfold borderSize at h
  unfold borderPos borderOrigin
  rcases lt_trichotomy i k with hik | hik | hik
  · rw [if_neg hik.ne, if_pos hik] at h
    rw [if_pos hik.le, if_neg (fun h => hik.ne h.2)]
    refine ⟨by omega, by omega, fun h => absurd hik h.asymm⟩
  · subst hik
    rw [if_pos rfl] at h
    rw [if_pos le_rfl]
    refine ⟨?_, ?_, fun h => absurd h (lt_irrefl _)⟩ <;> split <;> omega
  · rw [if_neg hik.ne', if_neg hik.asymm] at h
    rw [if_neg (not_le.2 hik), if_neg (fun h => hik.ne' h.2)]
    refine ⟨by omega, by omega, fun _ => ⟨by omega, by omega⟩⟩

theorem borderPos_side {P : Par d} {k : Fin d} {right : Bool} {c : Fin d → ℕ}
    (hc : ∀ i, c i < borderSize P k i) :
    if right then (P.b k : ℤ) ≤ borderPos P k right c k else borderPos P k right c k < 0 := by
  have h := hc k
  unfold borderSize at h
  rw [if_pos rfl] at h
  unfold borderPos borderOrigin
  rw [if_pos le_rfl]
  cases right <;> simp <;> omega

/-- A position visited by the loops is a ghost cell. -/
theorem isGhost_of_getPos {P : Par d} {k : Fin d} {index : ℕ} {q : Pos d}
    (h : getPos P k index = some q) : IsGhost P.b P.w q.inLocal := by
  obtain ⟨-, right, n, hn, -, e⟩ := getPos_eq_some h
  have hc := indexToCoord_lt (s := borderSize P k) hn
  refine ⟨fun i => ?_, k, ?_⟩
  · rw [e]
    have := borderPos_bounds (right := right) hc i
    exact ⟨this.1, this.2.1⟩
  · rw [e]
    have := borderPos_side (right := right) hc
    cases right
    · left; simpa using this
    · right; simpa using this

theorem borderPos_inj {P : Par d} {k k' : Fin d} {right right' : Bool} {c c' : Fin d → ℕ}
    (hc : ∀ i, c i < borderSize P k i) (hc' : ∀ i, c' i < borderSize P k' i)
    (h : borderPos P k right c = borderPos P k' right' c') : k = k' ∧ right = right' ∧ c = c' := by
  have key : ∀ {k k' : Fin d} {right right' : Bool} {c c' : Fin d → ℕ},
      (∀ i, c i < borderSize P k i) → (∀ i, c' i < borderSize P k' i) →
      borderPos P k right c = borderPos P k' right' c' → ¬ k < k' := by
    intro k k' right right' c c' hc hc' h hlt
    have h1 := (borderPos_bounds (right := right) hc k').2.2 hlt
    have h2 := borderPos_side (right := right') hc'
    rw [h] at h1
    cases right' <;> simp at h2 <;> omega
  have hk : k = k' := le_antisymm (not_lt.1 (key hc' hc h.symm)) (not_lt.1 (key hc hc' h))
  subst hk
  have h1 := borderPos_side (right := right) hc
  have h2 := borderPos_side (right := right') hc'
  rw [h] at h1
  have hr : right = right' := by
    cases right <;> cases right' <;> simp at h1 h2 <;> first | rfl | omega
  subst hr
  refine ⟨rfl, rfl, funext fun i => ?_⟩
  have := congrFun h i
  unfold borderPos at this
  omega

/-- Every ghost cell has border coordinates. -/
theorem exists_borderPos {P : Par d} {p : Fin d → ℤ} (h : IsGhost P.b P.w p) :
    ∃ k right c, (∀ i, c i < borderSize P k i) ∧ borderPos P k right c = p := by
  classical
  obtain ⟨hb, hex⟩ := h
  let S : Finset (Fin d) := Finset.univ.filter fun i => p i < 0 ∨ (P.b i : ℤ) ≤ p i
  have hS : S.Nonempty := by
    obtain ⟨i, hi⟩ := hex
    exact ⟨i, by simpa [S] using hi⟩
  obtain ⟨k, hkm, hkmax⟩ : ∃ k ∈ S, ∀ i ∈ S, i ≤ k := ⟨S.max' hS, S.max'_mem hS, S.le_max'⟩
  have hk : p k < 0 ∨ (P.b k : ℤ) ≤ p k := (Finset.mem_filter.1 hkm).2
  have hgt : ∀ i, k < i → 0 ≤ p i ∧ p i < P.b i := by
    intro i hi
    by_contra hn
    have : i ∈ S := by
      simp only [S, Finset.mem_filter, Finset.mem_univ, true_and]
      omega
    exact absurd (hkmax i this) (not_le.2 hi)
  let right : Bool := decide ((P.b k : ℤ) ≤ p k)
  refine ⟨k, right, fun i => (p i - borderOrigin P k i -
    (if right = true ∧ i = k then (P.w + P.b k : ℤ) else 0)).toNat, ?_, ?_⟩
  · intro i
    have hbi := hb i
    unfold borderSize borderOrigin
    rcases lt_trichotomy i k with hik | hik | hik
    · simp only [if_pos hik, if_pos hik.le, hik.ne, and_false, if_false]
      omega
    · subst hik
      simp only [le_refl, if_true, and_true]
      by_cases hr : (P.b i : ℤ) ≤ p i
      · have : right = true := by simpa [right] using hr
        simp only [this, if_true]
        omega
      · have : right = false := by simpa [right] using hr
        simp only [this, Bool.false_eq_true, if_false]
        omega
    · have := hgt i hik
      simp only [if_neg hik.asymm, if_neg (not_le.2 hik), hik.ne', and_false, if_false]
      omega
  · funext i
    have hbi := hb i
    unfold borderPos borderOrigin
    rcases lt_trichotomy i k with hik | hik | hik
    · simp only [if_pos hik.le, hik.ne, and_false, if_false]
      omega
    · subst hik
      simp only [le_refl, if_true, and_true]
      by_cases hr : (P.b i : ℤ) ≤ p i
      · have : right = true := by simpa [right] using hr
        simp only [this, if_true]
        omega
      · have : right = false := by simpa [right] using hr
        simp only [this, Bool.false_eq_true, if_false]
        omega
    · have := hgt i hik
      simp only [if_neg (not_le.2 hik), hik.ne', and_false, if_false]
      omega

theorem nbFace_le (P : Par d) (k : Fin d) : nbFace P k * 2 ≤ nbCells P := by
  unfold nbCells
  have : nbFace P k ≤ Finset.univ.sup (nbFace P) := Finset.le_sup (f := nbFace P) (Finset.mem_univ k)
  omega

/-- The loops visit exactly the ghost cells, each once. -/
theorem getPos_exists_unique {P : Par d} {p : Fin d → ℤ} (h : IsGhost P.b P.w p) :
    ∃! ki : Fin d × ℕ, ki.2 < nbCells P ∧ (getPos P ki.1 ki.2).map (·.inLocal) = some p := by
  obtain ⟨k, right, c, hc, e⟩ := exists_borderPos h
  obtain ⟨n, hn, rfl⟩ := indexToCoord_surj c hc
  obtain ⟨q, hq, hqp⟩ := getPos_of right hn
  refine ⟨(k, n + if right then nbFace P k else 0), ⟨?_, ?_⟩, ?_⟩
  · have := nbFace_le P k
    have : n < nbFace P k := hn
    simp only
    split <;> omega
  · simp only [hq, Option.map_some, hqp, e]
  · rintro ⟨k', i'⟩ ⟨-, h'⟩
    simp only [Option.map_eq_some_iff] at h'
    obtain ⟨q', hq', e'⟩ := h'
    obtain ⟨-, right', n', hn', ei, ep⟩ := getPos_eq_some hq'
    rw [e', ← e] at ep
    obtain ⟨rfl, rfl, ec⟩ := borderPos_inj hc (indexToCoord_lt hn') ep
    have := indexToCoord_inj hn hn' ec
    subst this
    rw [ei]

end Verif.Legacy
