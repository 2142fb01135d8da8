import Verif.AdaptOld.Model
import Verif.Adapt.Loop
import Verif.Adapt.Props
import Verif.Remap.Spec
import Mathlib.Tactic.FinCases

/-!
# C80: adaptation of the older hash map mesh

`AMRmesh_hashmap::adapt` ends, and gives a mesh that tiles the domain and is 2:1 balanced. Requested
refinements happen, and coarsening is done for whole families which one rank owns. On one rank the
markers are the least correction. On several ranks they are not: the result depends on the
distribution of the leaves.
-/

namespace Verif.AdaptOld

open Verif.Octree Verif.Adapt

variable {d P : ℕ}

/-- The preconditions on the requested markers. There is none on the level 0, unlike for
`AMRmesh_hashmap_new`. -/
structure Asked (G : Grid d) (M : Finset (Oct d)) (mk : Oct d → ℤ) : Prop where
  lower : ∀ a ∈ M, -1 ≤ mk a
  upper : ∀ a ∈ M, mk a ≤ 1
  coarsest : ∀ a ∈ M, mk a = -1 → G.lmin < a.level
  bound : ∀ a ∈ M, a.level < 2 ^ 15

theorem u16_eq {x : ℤ} (h0 : 0 ≤ x) (h1 : x < 2 ^ 16) : u16 x = x := by unfold u16; omega

section
variable {G : Grid d} (hG : G.WF) {M : Finset (Oct d)} (hM : Tiling G M) (hB : Balanced G M)
include hG hM hB

/-- The first octant found in the direction of a sibling. -/
theorem find_sibling {a : Oct d} (ha : a ∈ M) (hl : G.lmin < a.level) (off : Fin d → SignType)
    (hoff : off ∈ siblingOffsets a.pos) :
    ∃ s ns, findNeighbors G M a off = some (s :: ns) ∧ s ∈ M ∧
      (s = sameSize G a off ∨ (sameSize G a off ∉ M ∧ s.level = a.level + 1)) := by
  have hva := hM.valid a ha
  obtain ⟨h0, hin, hsib, hne⟩ := mem_siblingOffsets hva hl off hoff
  have hbd : ¬ isBoundary G a off = true := by
    rw [Bool.not_eq_true, isBoundary_iff hG]; exact hin
  obtain ⟨ns, e, -, hmem⟩ := findNeighbors_spec hG hM hB ha off h0
  by_cases h1 : sameSize G a off ∈ M
  · have e2 : findNeighbors G M a off = some [sameSize G a off] := by
      have h1' : (⟨a.level, neighborPos G a off⟩ : Oct d) ∈ M := h1
      simp only [findNeighbors, if_neg h0, if_neg hbd, if_pos h1']
      rfl
    exact ⟨_, [], e2, h1, Or.inl rfl⟩
  · have hpar : ¬ (1 ≤ a.level ∧ (⟨a.level - 1, fun i => neighborPos G a off i >>> 1⟩ : Oct d) ∈ M) := by
      rintro ⟨-, hp⟩
      have hanc : Anc (⟨a.level - 1, fun i => neighborPos G a off i >>> 1⟩ : Oct d) a := by
        refine ⟨Nat.sub_le _ _, fun i => ?_⟩
        have : a.level - (a.level - 1) = 1 := by omega
        have hs2 := hsib.2 i
        simp only [sameSize] at hs2
        simp [this, Nat.shiftRight_eq_div_pow, hs2]
      have := hM.eq_of_anc hG hp ha hanc
      have := congrArg Oct.level this
      simp only at this
      omega
    have h1' : ¬ (⟨a.level, neighborPos G a off⟩ : Oct d) ∈ M := h1
    have e2 := e
    simp only [findNeighbors, if_neg h0, if_neg hbd, if_neg h1', if_neg hpar] at e2
    split at e2
    · simp only [Option.some.injEq] at e2
      rename_i hall
      have hne2 : ns ≠ [] := by
        intro hnil
        have hz : (finerNeighbors a.level (neighborPos G a off) off).length = 0 := by
          rw [e2, hnil]; rfl
        unfold finerNeighbors at hz
        rw [List.length_map, length_loops, Finset.prod_eq_zero_iff] at hz
        obtain ⟨i, -, hi⟩ := hz
        split at hi <;> simp at hi
      obtain ⟨s, ns', hs⟩ := List.exists_cons_of_ne_nil hne2
      have hsmem : s ∈ finerNeighbors a.level (neighborPos G a off) off := by
        rw [e2, hs]; simp
      exact ⟨s, ns', by rw [e, hs], hall s hsmem,
        Or.inr ⟨h1, ((finer_mem_iff _ _ _ _).1 hsmem).1⟩⟩
    · exact absurd e2 (by simp)

/-- `is_full_coarsening` decides whether all siblings are leaves marked for coarsening. -/
theorem fullCoarsening_spec (mk : Oct d → ℤ) (hr : Asked G M mk) {a : Oct d} (ha : a ∈ M)
    (hm : mk a = -1) : ∃ b, fullCoarsening G M mk a (siblingOffsets a.pos) = some b ∧
      (b = true ↔ AllSib M mk a) := by
  have hl := hr.coarsest a ha hm
  have hva := hM.valid a ha
  have key : ∀ os : List (Fin d → SignType), (∀ off ∈ os, off ∈ siblingOffsets a.pos) →
      ∃ b, fullCoarsening G M mk a os = some b ∧
        (b = true ↔ ∀ off ∈ os, sameSize G a off ∈ M ∧ mk (sameSize G a off) = -1) := by
    intro os
    induction os with
    | nil => exact fun _ => ⟨true, rfl, by simp⟩
    | cons off os ih =>
      intro hos
      obtain ⟨b, e, hb⟩ := ih fun o ho => hos o (List.mem_cons_of_mem _ ho)
      obtain ⟨s, ns, e1, hs, h1⟩ := find_sibling hG hM hB ha hl off (hos off (by simp))
      have h2 := hr.lower s hs
      have h3 := hr.upper s hs
      have h4 := hr.bound s hs
      have h5 := hr.bound a ha
      have h6 := (hM.valid s hs).1
      have h7 : 0 ≤ (s.level : ℤ) + mk s := by
        by_cases h : mk s = -1
        · have := hr.coarsest s hs h; omega
        · omega
      unfold fullCoarsening
      rw [e1]
      simp only [Option.bind_some, List.head?_cons]
      rw [u16_eq h7 (by omega), u16_eq (by omega) (by omega)]
      by_cases h8 : (s.level : ℤ) + mk s = a.level - 1
      · have h9 : s = sameSize G a off := by
          rcases h1 with h | ⟨-, h⟩
          · exact h
          · omega
        have h10 : s.level = a.level := by rw [h9]; rfl
        rw [if_neg (by simpa using h8)]
        refine ⟨b, e, hb.trans ?_⟩
        rw [List.forall_mem_cons, ← h9]
        exact ⟨fun h => ⟨⟨hs, by omega⟩, h⟩, fun h => h.2⟩
      · rw [if_pos h8]
        refine ⟨false, rfl, ⟨fun h => absurd h (by simp), fun h => ?_⟩⟩
        exfalso
        obtain ⟨h9, h10⟩ := h off (by simp)
        rcases h1 with rfl | ⟨h, -⟩
        · have : (sameSize G a off).level = a.level := rfl
          omega
        · exact h h9
  obtain ⟨b, e, hb⟩ := key _ fun _ h => h
  refine ⟨b, e, hb.trans ⟨fun hall s hs => ?_, fun hall off hoff => ?_⟩⟩
  · by_cases hne : s = a
    · rw [hne]; exact ⟨ha, hm⟩
    · obtain ⟨off, hoff, hoff2⟩ := exists_siblingOffset hva hl hs hne
      rw [← hoff2]; exact hall off hoff
  · exact hall _ (mem_siblingOffsets hva hl off hoff).2.2.1

omit hG hB in
theorem target_nonneg {mk : Oct d → ℤ} (hr : Asked G M mk) {a : Oct d} (ha : a ∈ M) :
    0 ≤ (a.level : ℤ) + mk a := by
  have h1 := hr.lower a ha
  have h2 := (hM.valid a ha).1
  by_cases h : mk a = -1
  · have := hr.coarsest a ha h; omega
  · omega

/-- `need_refine_to_balance` decides whether a leaf that touches will be too fine. -/
theorem needRefine_spec (mk : Oct d → ℤ) (hr : Asked G M mk) {a : Oct d} (ha : a ∈ M) :
    ∃ b, needRefine G M mk a (directions d) = some b ∧
      (b = true ↔ ∃ n ∈ M, Touch G a n ∧ (a.level : ℤ) + mk a + 1 < n.level + mk n) := by
  have key : ∀ os : List (Fin d → SignType), (∀ off ∈ os, ¬ ∀ i, off i = 0) →
      ∃ b, needRefine G M mk a os = some b ∧
        (b = true ↔ ∃ off ∈ os, ∃ n ∈ M, DirAdj G a off n ∧
          (a.level : ℤ) + mk a + 1 < n.level + mk n) := by
    intro os
    induction os with
    | nil => exact fun _ => ⟨false, rfl, by simp⟩
    | cons off os ih =>
      intro hos
      obtain ⟨b, e, hb⟩ := ih fun o ho => hos o (List.mem_cons_of_mem _ ho)
      obtain ⟨ns, e1, -, hmem⟩ := findNeighbors_spec hG hM hB ha off (hos off (by simp))
      have hu : ∀ n ∈ M, u16 (n.level + mk n) = n.level + mk n := fun n hn => by
        have h1 := hr.upper n hn
        have h2 := hr.bound n hn
        exact u16_eq (target_nonneg hM hr hn) (by omega)
      unfold needRefine
      rw [e1]
      simp only [Option.bind_some]
      by_cases h : ∃ n ∈ ns, u16 (n.level + mk n) - u16 (a.level + mk a) > 1
      · rw [if_pos h]
        obtain ⟨n, hn, h1⟩ := h
        obtain ⟨hnM, hadj⟩ := (hmem n).1 hn
        rw [hu n hnM, hu a ha] at h1
        exact ⟨true, rfl, fun _ => ⟨off, by simp, n, hnM, hadj, by omega⟩, fun _ => rfl⟩
      · rw [if_neg h]
        refine ⟨b, e, hb.trans ⟨?_, ?_⟩⟩
        · rintro ⟨o, ho, h1⟩
          exact ⟨o, List.mem_cons_of_mem _ ho, h1⟩
        · rintro ⟨o, ho, n, hn, hadj, h1⟩
          rcases List.mem_cons.1 ho with rfl | ho
          · exfalso
            refine h ⟨n, (hmem n).2 ⟨hn, hadj⟩, ?_⟩
            rw [hu n hn, hu a ha]
            omega
          · exact ⟨o, ho, n, hn, hadj, h1⟩
  obtain ⟨b, e, hb⟩ := key _ fun off hoff => (mem_directions off).1 hoff
  refine ⟨b, e, hb.trans ⟨?_, ?_⟩⟩
  · rintro ⟨off, -, n, hn, hadj, h⟩
    exact ⟨n, hn, hadj.touch hG, h⟩
  · rintro ⟨n, hn, ht, h⟩
    by_cases hab : a = n
    · subst hab; omega
    · obtain ⟨off, h0, hadj⟩ := hM.exists_dir hG ha hn hab ht
      exact ⟨off, (mem_directions off).2 h0, n, hn, hadj, h⟩

end

theorem fullCoarsening_congr {G : Grid d} {M M' : Finset (Oct d)} (mk : Oct d → ℤ) (a : Oct d)
    (h : ∀ off, findNeighbors G M' a off = findNeighbors G M a off)
    (os : List (Fin d → SignType)) :
    fullCoarsening G M' mk a os = fullCoarsening G M mk a os := by
  induction os with
  | nil => rfl
  | cons off os ih =>
    unfold fullCoarsening
    rw [h, ih]

theorem needRefine_congr {G : Grid d} {M M' : Finset (Oct d)} (mk : Oct d → ℤ) (a : Oct d)
    (h : ∀ off, findNeighbors G M' a off = findNeighbors G M a off)
    (os : List (Fin d → SignType)) :
    needRefine G M' mk a os = needRefine G M mk a os := by
  induction os with
  | nil => rfl
  | cons off os ih =>
    unfold needRefine
    rw [h, ih]

theorem asked_own {G : Grid d} {M : Finset (Oct d)} (D : Dist d P) (r : Fin P) {mk : Oct d → ℤ}
    (h : Asked G M mk) : Asked G M (own D r mk) := by
  refine ⟨fun a ha => ?_, fun a ha => ?_, fun a ha h1 => ?_, h.bound⟩
  · unfold own; split
    · exact h.lower a ha
    · omega
  · unfold own; split
    · exact h.upper a ha
    · omega
  · unfold own at h1
    split at h1
    · exact h.coarsest a ha h1
    · omega

theorem asked_mono {G : Grid d} {M : Finset (Oct d)} {mk f : Oct d → ℤ} (h : Asked G M mk)
    (hf : ∀ a ∈ M, -1 ≤ f a ∧ f a ≤ 1) (hc : ∀ a ∈ M, f a = -1 → mk a = -1) : Asked G M f :=
  ⟨fun a ha => (hf a ha).1, fun a ha => (hf a ha).2,
    fun a ha h1 => h.coarsest a ha (hc a ha h1), h.bound⟩

theorem AllSib.of_sibling {M : Finset (Oct d)} {mk : Oct d → ℤ} {a s : Oct d} (h : AllSib M mk a)
    (hs : Sibling s a) : AllSib M mk s := fun t ht =>
  h t ⟨ht.1.trans hs.1, fun i => (ht.2 i).trans (hs.2 i)⟩

section
variable {G : Grid d} (hG : G.WF) {M : Finset (Oct d)} (hM : Tiling G M) (hB : Balanced G M)
  (D : Dist d P) (hD : GhostComplete G M D.owner D.ghost)
include hG hM hD

theorem find_local {a : Oct d} (ha : a ∈ M) (off : Fin d → SignType) :
    findNeighbors G (localMap D M (D.owner a)) a off = findNeighbors G M a off := by
  apply findNeighbors_congr hG hM _ ha
  · intro b hb ht
    unfold localMap
    rw [Finset.mem_union, Finset.mem_filter]
    by_cases h : D.owner b = D.owner a
    · exact Or.inl ⟨hb, h⟩
    · exact Or.inr ((hD (D.owner a)).2 a ha rfl b hb h ht)
  · intro b hb
    unfold localMap at hb
    rw [Finset.mem_union, Finset.mem_filter] at hb
    rcases hb with h | h
    · exact h.1
    · exact (hD _).1 b h

include hB

/-- `adapt_clean`. -/
theorem clean_spec (r : Fin P) {mk : Oct d → ℤ} (h : Asked G M mk) :
    ∃ c, clean G D M r mk = some c ∧ (∀ a, ¬ (a ∈ M ∧ D.owner a = r) → c a = 0) ∧
      ∀ a ∈ M, D.owner a = r → (c a = mk a ∧ (mk a = -1 → AllSib M mk a)) ∨
        (mk a = -1 ∧ ¬ AllSib M mk a ∧ c a = 0) := by
  have key : ∀ a ∈ M, D.owner a = r → ∃ x, cleanOct G (localMap D M r) mk a = some x ∧
      ((x = mk a ∧ (mk a = -1 → AllSib M mk a)) ∨ (mk a = -1 ∧ ¬ AllSib M mk a ∧ x = 0)) := by
    intro a ha ho
    unfold cleanOct
    by_cases h1 : mk a = 1
    · rw [if_pos h1]
      exact ⟨1, rfl, Or.inl ⟨h1.symm, by omega⟩⟩
    rw [if_neg h1]
    by_cases h2 : mk a = -1
    · rw [if_pos h2, ← ho, fullCoarsening_congr mk a (find_local hG hM D hD ha)]
      obtain ⟨b, e, hb⟩ := fullCoarsening_spec hG hM hB mk h ha h2
      rw [e]
      refine ⟨_, rfl, ?_⟩
      cases b with
      | true => exact Or.inl ⟨by simp [h2], fun _ => hb.1 rfl⟩
      | false => exact Or.inr ⟨h2, fun hc => by simpa using hb.2 hc, by simp⟩
    · rw [if_neg h2]
      have h3 := h.lower a ha
      have h4 := h.upper a ha
      exact ⟨0, rfl, Or.inl ⟨by omega, fun h5 => absurd h5 h2⟩⟩
  unfold clean onOwn
  rw [if_pos]
  · refine ⟨_, rfl, fun a hn => by simp only [if_neg hn], fun a ha ho => ?_⟩
    obtain ⟨x, e, hx⟩ := key a ha ho
    simp only [if_pos (And.intro ha ho), e, Option.getD_some]
    exact hx
  · intro a ha ho
    obtain ⟨x, e, -⟩ := key a ha ho
    rw [e]; rfl

/-- A leaf that touches `a` will be more than one level finer. -/
def TooCoarse (G : Grid d) (M : Finset (Oct d)) (mk : Oct d → ℤ) (a : Oct d) : Prop :=
  ∃ n ∈ M, Touch G a n ∧ (a.level : ℤ) + mk a + 1 < n.level + mk n

omit hG hM hD in
theorem TooCoarse.le {mk : Oct d → ℤ} (h : Asked G M mk) {a : Oct d} (ha : a ∈ M)
    (hc : TooCoarse G M mk a) : mk a ≤ 0 := by
  obtain ⟨n, hn, ht, h1⟩ := hc
  have h2 := hB n hn a ha ht.symm
  have h3 := h.upper n hn
  omega

/-- `adapt_21balance_step`. -/
theorem step_spec (r : Fin P) {mk : Oct d → ℤ} (h : Asked G M mk) :
    ∃ s, step G D M r mk = some s ∧ (∀ a, ¬ (a ∈ M ∧ D.owner a = r) → s a = 0) ∧
      (∀ a ∈ M, D.owner a = r → (s a = mk a ∧ ¬ TooCoarse G M mk a) ∨
        (s a = mk a + 1 ∧ TooCoarse G M mk a)) ∧
      (modified G D M r mk ↔ ∃ a ∈ M, D.owner a = r ∧ TooCoarse G M mk a) := by
  have key : ∀ a ∈ M, D.owner a = r → ∃ b, needRefine G (localMap D M r) mk a (directions d) = some b ∧
      (b = true ↔ TooCoarse G M mk a) := by
    intro a ha ho
    rw [← ho, needRefine_congr mk a (find_local hG hM D hD ha)]
    exact needRefine_spec hG hM hB mk h ha
  unfold step onOwn
  rw [if_pos]
  · refine ⟨_, rfl, fun a hn => by simp only [if_neg hn], fun a ha ho => ?_, ?_⟩
    · obtain ⟨b, e, hb⟩ := key a ha ho
      simp only [if_pos (And.intro ha ho), stepOct, e, Option.map_some, Option.getD_some]
      cases b with
      | true => exact Or.inr ⟨by simp, hb.1 rfl⟩
      | false => exact Or.inl ⟨by simp, fun hc => by simpa using hb.2 hc⟩
    · unfold modified
      refine exists_congr fun a => and_congr_right fun ha => and_congr_right fun ho => ?_
      obtain ⟨b, e, hb⟩ := key a ha ho
      rw [e, Option.some.injEq]
      exact hb
  · intro a ha ho
    obtain ⟨b, e, -⟩ := key a ha ho
    simp [stepOct, e]

/-- The loop of one rank. -/
theorem inner_spec (r : Fin P) (fuel : ℕ) (cur : Oct d → ℤ) (upd : Bool) (h : Asked G M cur)
    (hf : room (M.filter fun a => D.owner a = r) cur < fuel) :
    ∃ f u, inner G D M r fuel cur upd = some (f, u) ∧
      (∀ a ∈ M, D.owner a = r → cur a ≤ f a ∧ f a ≤ 1) ∧
      (∀ mk', Admissible G M mk' → (∀ a ∈ M, D.owner a ≠ r → 0 ≤ mk' a) →
        (∀ a ∈ M, cur a ≤ mk' a) → ∀ a ∈ M, D.owner a = r → f a ≤ mk' a) ∧
      (u = false → upd = false ∧ ∀ a ∈ M, D.owner a = r → f a = cur a ∧ ¬ TooCoarse G M cur a) ∧
      (u = true → upd = true ∨ ∃ a ∈ M, D.owner a = r ∧ cur a < f a) := by
  induction fuel generalizing cur upd with
  | zero => omega
  | succ fuel ih =>
    obtain ⟨s, e, s0, hs, hmod⟩ := step_spec hG hM hB D hD r h
    have hs1 : ∀ a ∈ M, D.owner a = r → cur a ≤ s a ∧ s a ≤ 1 := by
      intro a ha ho
      have h2 := h.upper a ha
      rcases hs a ha ho with ⟨h1, -⟩ | ⟨h1, hc⟩
      · omega
      · have := hc.le hB h ha; omega
    have hsup : ∀ mk', Admissible G M mk' → (∀ a ∈ M, D.owner a ≠ r → 0 ≤ mk' a) →
        (∀ a ∈ M, cur a ≤ mk' a) → ∀ a ∈ M, s a ≤ mk' a := by
      intro mk' hA h0 hle a ha
      by_cases ho : D.owner a = r
      · rcases hs a ha ho with ⟨h1, -⟩ | ⟨h1, n, hn, ht, h2⟩
        · rw [h1]; exact hle a ha
        · have h3 := hA.two a ha n hn ht
          have h4 := hle n hn
          omega
      · rw [s0 a fun h => ho h.2]; exact h0 a ha ho
    unfold inner
    rw [e, Option.bind_some]
    by_cases hm : modified G D M r cur
    · rw [if_pos hm]
      obtain ⟨a, ha, ho, hc⟩ := hmod.1 hm
      have hsa : s a = cur a + 1 := by
        rcases hs a ha ho with ⟨-, h1⟩ | ⟨h1, -⟩
        · exact absurd hc h1
        · exact h1
      have hAs : Asked G M s := by
        refine asked_mono h (fun b hb => ?_) fun b hb h1 => ?_
        · by_cases hob : D.owner b = r
          · have h1 := hs1 b hb hob
            have h2 := h.lower b hb
            omega
          · rw [s0 b fun h => hob h.2]; omega
        · by_cases hob : D.owner b = r
          · have h2 := hs1 b hb hob
            have h3 := h.lower b hb
            omega
          · rw [s0 b fun h => hob h.2] at h1; omega
      obtain ⟨c, e2, c0, hcl⟩ := clean_spec hG hM hB D hD r hAs
      have hc1 : ∀ b ∈ M, D.owner b = r → s b ≤ c b ∧ c b ≤ 1 := by
        intro b hb hob
        have h1 := hs1 b hb hob
        rcases hcl b hb hob with ⟨h2, -⟩ | ⟨h2, -, h3⟩ <;> omega
      have hcup : ∀ mk', Admissible G M mk' → (∀ a ∈ M, D.owner a ≠ r → 0 ≤ mk' a) →
          (∀ a ∈ M, cur a ≤ mk' a) → ∀ a ∈ M, c a ≤ mk' a := by
        intro mk' hA h0 hle b hb
        have hsl := hsup mk' hA h0 hle
        by_cases hob : D.owner b = r
        · rcases hcl b hb hob with ⟨h2, -⟩ | ⟨h2, h3, h4⟩
          · rw [h2]; exact hsl b hb
          · rw [h4]
            by_contra hneg
            apply h3
            intro t ht
            have h5 := hsl b hb
            obtain ⟨h6, h7⟩ := hA.sib b hb (by omega) t ht
            have h8 := hsl t h6
            have h9 := hAs.lower t h6
            exact ⟨h6, by omega⟩
        · rw [c0 b fun h => hob h.2]; exact h0 b hb hob
      have hAc : Asked G M c := by
        refine asked_mono hAs (fun b hb => ?_) fun b hb h1 => ?_
        · by_cases hob : D.owner b = r
          · have h1 := hc1 b hb hob
            have h2 := hAs.lower b hb
            omega
          · rw [c0 b fun h => hob h.2]; omega
        · by_cases hob : D.owner b = r
          · have h2 := hc1 b hb hob
            have h3 := hAs.lower b hb
            omega
          · rw [c0 b fun h => hob h.2] at h1; omega
      have hroom : room (M.filter fun a => D.owner a = r) c <
          room (M.filter fun a => D.owner a = r) cur := by
        unfold room
        apply Finset.sum_lt_sum
        · intro b hb
          obtain ⟨hb1, hb2⟩ := Finset.mem_filter.1 hb
          have h1 := hs1 b hb1 hb2
          have h2 := hc1 b hb1 hb2
          omega
        · refine ⟨a, Finset.mem_filter.2 ⟨ha, ho⟩, ?_⟩
          have h1 := hs1 a ha ho
          have h2 := hc1 a ha ho
          omega
      obtain ⟨f, u, e3, g1, g2, g3, g4⟩ := ih c true hAc (by omega)
      rw [e2, Option.bind_some]
      refine ⟨f, u, e3, fun b hb hob => ?_, fun mk' hA h0 hle => g2 mk' hA h0 (hcup mk' hA h0 hle),
        fun hu => absurd (g3 hu).1 (by simp), fun _ => Or.inr ⟨a, ha, ho, ?_⟩⟩
      · have h1 := hs1 b hb hob
        have h2 := hc1 b hb hob
        have h3 := g1 b hb hob
        omega
      · have h1 := hc1 a ha ho
        have h2 := g1 a ha ho
        omega
    · rw [if_neg hm]
      refine ⟨s, upd, rfl, hs1, fun mk' hA h0 hle a ha _ => hsup mk' hA h0 hle a ha,
        fun hu => ⟨hu, fun a ha ho => ?_⟩, fun hu => Or.inl hu⟩
      rcases hs a ha ho with h1 | ⟨-, hc⟩
      · exact h1
      · exact absurd (hmod.2 ⟨a, ha, ho, hc⟩) hm

end

theorem gather_some (D : Dist d P) {F : Fin P → Option (Oct d → ℤ)} {f : Fin P → Oct d → ℤ}
    (h : ∀ r, F r = some (f r)) : gather D F = some fun o => f (D.owner o) o := by
  unfold gather
  rw [if_pos fun r => by rw [h]; rfl]
  simp only [h]

/-- Markers that `adapt_clean` leaves alone on every rank. -/
def Clean (M : Finset (Oct d)) (owner : Oct d → Fin P) (mk : Oct d → ℤ) : Prop :=
  ∀ a ∈ M, mk a = -1 → ∀ s, Sibling s a → s ∈ M ∧ mk s = -1 ∧ owner s = owner a

section
variable {G : Grid d} (hG : G.WF) {M : Finset (Oct d)} (hM : Tiling G M) (hB : Balanced G M)
  (D : Dist d P) (hD : GhostComplete G M D.owner D.ghost)
include hG hM hB hD

/-- `adapt_clean` on all ranks, with the markers of local octants only. -/
theorem gather_clean {mk : Oct d → ℤ} (h : Asked G M mk) :
    ∃ c, (gather D fun r => clean G D M r (own D r mk)) = some c ∧ Asked G M c ∧
      Clean M D.owner c ∧ (∀ a ∈ M, mk a ≤ c a) ∧
      (Clean M D.owner mk → ∀ a ∈ M, c a = mk a) ∧
      (∀ mk', Admissible G M mk' → (∀ r, ∀ a ∈ M, D.owner a ≠ r → 0 ≤ mk' a) →
        (∀ a ∈ M, mk a ≤ mk' a) → ∀ a ∈ M, c a ≤ mk' a) := by
  have key := fun r => clean_spec hG hM hB D hD r (asked_own D r h)
  choose c e c0 hc using key
  have hown : ∀ a, own D (D.owner a) mk a = mk a := fun a => by unfold own; rw [if_pos rfl]
  have hc' : ∀ a ∈ M, (c (D.owner a) a = mk a ∧ (mk a = -1 → AllSib M (own D (D.owner a) mk) a)) ∨
        (mk a = -1 ∧ ¬ AllSib M (own D (D.owner a) mk) a ∧ c (D.owner a) a = 0) := by
    intro a ha
    have := hc (D.owner a) a ha rfl
    rwa [hown] at this
  have hsib : ∀ a, AllSib M (own D (D.owner a) mk) a ↔
      ∀ s, Sibling s a → s ∈ M ∧ mk s = -1 ∧ D.owner s = D.owner a := by
    intro a
    unfold AllSib own
    refine forall_congr' fun s => imp_congr_right fun _ => and_congr_right fun _ => ?_
    split
    · next h1 => exact ⟨fun h2 => ⟨h2, h1⟩, fun h2 => h2.1⟩
    · next h1 => exact ⟨fun h2 => by omega, fun h2 => absurd h2.2 h1⟩
  have hneg : ∀ a ∈ M, c (D.owner a) a = -1 → mk a = -1 ∧ AllSib M (own D (D.owner a) mk) a := by
    intro a ha h1
    rcases hc' a ha with ⟨h2, h3⟩ | ⟨-, -, h2⟩
    · exact ⟨by omega, h3 (by omega)⟩
    · omega
  refine ⟨_, gather_some D e, asked_mono h (fun a ha => ?_) fun a ha h1 => (hneg a ha h1).1,
    fun a ha h1 s hs => ?_, fun a ha => ?_, fun hcl a ha => ?_, fun mk' hA h0 hle a ha => ?_⟩
  · have h1 := h.lower a ha
    have h2 := h.upper a ha
    rcases hc' a ha with ⟨h3, -⟩ | ⟨-, -, h3⟩ <;> rw [h3] <;> constructor <;> omega
  · obtain ⟨-, h3⟩ := hneg a ha h1
    have hs1 := (hsib a).1 h3
    obtain ⟨h4, h5, h6⟩ := hs1 s hs
    refine ⟨h4, ?_, h6⟩
    rcases hc' s h4 with ⟨h7, -⟩ | ⟨-, h7, -⟩
    · show c (D.owner s) s = -1
      rw [h7]; exact h5
    · exact absurd (h6 ▸ AllSib.of_sibling h3 hs) h7
  · rcases hc' a ha with ⟨h3, -⟩ | ⟨h2, -, h3⟩
    · exact h3.ge
    · rw [h3]; omega
  · rcases hc' a ha with ⟨h3, -⟩ | ⟨h2, h3, -⟩
    · exact h3
    · exact absurd ((hsib a).2 fun s hs => hcl a ha h2 s hs) h3
  · rcases hc' a ha with ⟨h3, -⟩ | ⟨h2, h3, h4⟩
    · rw [h3]; exact hle a ha
    · rw [h4]
      by_contra hn
      apply h3
      rw [hsib]
      intro s hs
      have h5 := hle a ha
      obtain ⟨h6, h7⟩ := hA.sib a ha (by omega) s hs
      have h8 := hle s h6
      have h9 := h.lower s h6
      refine ⟨h6, by omega, ?_⟩
      by_contra hne
      have := h0 (D.owner a) s h6 hne
      omega

/-- The loop of all ranks. -/
theorem outer_spec (innerFuel : ℕ) (hif : 2 * M.card < innerFuel) (fuel : ℕ) (mk : Oct d → ℤ)
    (h : Asked G M mk) (hf : room M mk < fuel) :
    ∃ f, outer G D M innerFuel fuel mk = some f ∧ Asked G M f ∧ Clean M D.owner f ∧
      (∀ a ∈ M, mk a ≤ f a) ∧ (∀ a ∈ M, ¬ TooCoarse G M f a) ∧
      (∀ mk', Admissible G M mk' → (∀ r, ∀ a ∈ M, D.owner a ≠ r → 0 ≤ mk' a) →
        (∀ a ∈ M, mk a ≤ mk' a) → ∀ a ∈ M, f a ≤ mk' a) := by
  induction fuel generalizing mk with
  | zero => omega
  | succ fuel ih =>
    obtain ⟨c, e, hAc, hCc, hle, -, hup⟩ := gather_clean hG hM hB D hD h
    have hroom : ∀ r, room (M.filter fun a => D.owner a = r) c < innerFuel := by
      intro r
      refine lt_of_le_of_lt ?_ hif
      unfold room
      calc ∑ a ∈ M.filter fun a => D.owner a = r, (1 - c a).toNat
          ≤ ∑ _a ∈ M.filter fun a => D.owner a = r, 2 := by
            apply Finset.sum_le_sum
            intro a ha
            have := hAc.lower a (Finset.mem_filter.1 ha).1
            omega
        _ = 2 * (M.filter fun a => D.owner a = r).card := by
            rw [Finset.sum_const, smul_eq_mul, mul_comm]
        _ ≤ 2 * M.card := by
            have := Finset.card_filter_le M fun a => D.owner a = r
            omega
    have key := fun r => inner_spec hG hM hB D hD r innerFuel c false hAc (hroom r)
    choose F U ei g1 g2 g3 g4 using key
    have e2 : (gather D fun r => (inner G D M r innerFuel c false).map Prod.fst) =
        some fun o => F (D.owner o) o := gather_some D fun r => by rw [ei]; rfl
    unfold outer
    rw [e, Option.bind_some, e2, Option.bind_some]
    simp only [ei, Option.map_some, Option.some.injEq]
    have hFup : ∀ mk', Admissible G M mk' → (∀ r, ∀ a ∈ M, D.owner a ≠ r → 0 ≤ mk' a) →
        (∀ a ∈ M, mk a ≤ mk' a) → ∀ a ∈ M, F (D.owner a) a ≤ mk' a := fun mk' hA h0 hl a ha =>
      g2 _ mk' hA (h0 _) (hup mk' hA h0 hl) a ha rfl
    have hAF : Asked G M fun o => F (D.owner o) o := by
      refine asked_mono hAc (fun a ha => ?_) fun a ha h1 => ?_
      · have h1 := g1 _ a ha rfl
        have h2 := hAc.lower a ha
        omega
      · have h2 := g1 _ a ha rfl
        have h3 := hAc.lower a ha
        omega
    by_cases hu : ∃ r, U r = true
    · rw [if_pos hu]
      obtain ⟨r, hr⟩ := hu
      obtain ⟨a, ha, ho, hlt⟩ := (g4 r hr).resolve_left (by simp)
      have hlt2 : room M (fun o => F (D.owner o) o) < room M mk := by
        unfold room
        apply Finset.sum_lt_sum
        · intro b hb
          have h1 := g1 _ b hb rfl
          have h2 := hle b hb
          beta_reduce
          omega
        · refine ⟨a, ha, ?_⟩
          have h1 := g1 _ a ha rfl
          have h2 := hle a ha
          rw [← ho] at hlt
          beta_reduce
          omega
      obtain ⟨f, e3, k1, k2, k3, k4, k5⟩ := ih _ hAF (by omega)
      refine ⟨f, e3, k1, k2, fun b hb => ?_, k4, fun mk' hA h0 hl => k5 mk' hA h0 (hFup mk' hA h0 hl)⟩
      have h1 := g1 _ b hb rfl
      have h2 := hle b hb
      have h3 := k3 b hb
      omega
    · rw [if_neg hu]
      have hU : ∀ r, U r = false := fun r => by
        by_contra hc
        exact hu ⟨r, by simpa using hc⟩
      have hsame : ∀ a ∈ M, F (D.owner a) a = c a := fun a ha => ((g3 _ (hU _)).2 a ha rfl).1
      refine ⟨_, rfl, hAF, fun a ha h1 s hs => ?_, fun a ha => ?_, fun a ha => ?_, hFup⟩
      · simp only [hsame a ha] at h1
        obtain ⟨h2, h3, h4⟩ := hCc a ha h1 s hs
        exact ⟨h2, by simp only [hsame s h2]; exact h3, h4⟩
      · simp only [hsame a ha]; exact hle a ha
      · rintro ⟨n, hn, ht, h1⟩
        simp only [hsame a ha, hsame n hn] at h1
        exact ((g3 _ (hU _)).2 a ha rfl).2 ⟨n, hn, ht, h1⟩

/-- The corrected markers. -/
theorem adaptMarkers_spec (mk : Oct d → ℤ) (h : Asked G M mk) (innerFuel fuel : ℕ)
    (h1 : 2 * M.card < innerFuel) (h2 : 2 * M.card < fuel) :
    ∃ f, adaptMarkers G D M innerFuel fuel mk = some f ∧ Asked G M f ∧ Clean M D.owner f ∧
      (∀ a ∈ M, mk a ≤ f a) ∧ Admissible G M f ∧
      (∀ mk', Admissible G M mk' → (∀ r, ∀ a ∈ M, D.owner a ≠ r → 0 ≤ mk' a) →
        (∀ a ∈ M, mk a ≤ mk' a) → ∀ a ∈ M, f a ≤ mk' a) := by
  have hroom : room M mk < fuel := by
    refine lt_of_le_of_lt ?_ h2
    unfold room
    calc ∑ a ∈ M, (1 - mk a).toNat ≤ ∑ _a ∈ M, 2 := by
          apply Finset.sum_le_sum
          intro a ha
          have := h.lower a ha
          omega
      _ = 2 * M.card := by rw [Finset.sum_const, smul_eq_mul, mul_comm]
  obtain ⟨g, e, hA, hC, hle, hT, hup⟩ := outer_spec hG hM hB D hD innerFuel h1 fuel mk h hroom
  obtain ⟨f, e2, hAf, hCf, -, hsame, -⟩ := gather_clean hG hM hB D hD hA
  have hs := hsame hC
  unfold adaptMarkers
  rw [e, Option.bind_some]
  refine ⟨f, e2, hAf, hCf, fun a ha => by rw [hs a ha]; exact hle a ha, ⟨fun a ha b hb ht => ?_,
    fun a ha h3 s hs1 => ?_⟩, fun mk' hA' h0 hl a ha => by rw [hs a ha]; exact hup mk' hA' h0 hl a ha⟩
  · rw [hs a ha, hs b hb]
    by_contra hc
    exact hT a ha ⟨b, hb, ht, by omega⟩
  · obtain ⟨h4, h5, -⟩ := hCf a ha h3 s hs1
    exact ⟨h4, h5⟩

end

/-! ### The size of the new array -/

/-- The first octant of the family of `a`. -/
def firstSib (a : Oct d) : Oct d := ⟨a.level, fun i => 2 * (a.pos i / 2)⟩

theorem length_written (mk : Oct d → ℤ) (l : List (Oct d)) (h : ∀ a ∈ l, -1 ≤ mk a ∧ mk a ≤ 1) :
    (newLeaves mk l).length = (l.length - (l.countP fun a => mk a = 1) - l.countP fun a => mk a = -1) +
      2 ^ d * (l.countP fun a => mk a = 1) + (l.countP fun a => mk a = -1 ∧ ∀ i, a.pos i % 2 = 0) ∧
      (l.countP fun a => mk a = 1) + (l.countP fun a => mk a = -1) ≤ l.length := by
  induction l with
  | nil => simp [newLeaves]
  | cons a l ih =>
    obtain ⟨ih1, ih2⟩ := ih fun b hb => h b (List.mem_cons_of_mem _ hb)
    have e : (newLeaves mk (a :: l)).length = (written (mk a) a).length + (newLeaves mk l).length := by
      simp [newLeaves]
    have h1 := h a (by simp)
    rw [e, ih1]
    simp only [List.countP_cons, List.length_cons]
    generalize (l.countP fun a => mk a = 1) = x at *
    generalize (l.countP fun a => mk a = -1) = y at *
    generalize (l.countP fun a => mk a = -1 ∧ ∀ i, a.pos i % 2 = 0) = z at *
    unfold written
    by_cases h2 : mk a = 1
    · have : (children a).length = 2 ^ d := by simp [children]
      simp only [h2, if_true, decide_true, this]
      norm_num
      constructor
      · rw [Nat.mul_add]; omega
      · omega
    · by_cases h3 : mk a = 0
      · simp [h3]; omega
      · have h4 : mk a = -1 := by omega
        by_cases h5 : ∀ i, a.pos i % 2 = 0
        · simp [h4, h5]; omega
        · simp [h4, h5]; omega

/-- Families of `2^d` octants. -/
theorem card_family (S : Finset (Oct d)) (h : ∀ a ∈ S, ∀ s, Sibling s a → s ∈ S) :
    S.card = 2 ^ d * (S.filter fun a => ∀ i, a.pos i % 2 = 0).card := by
  classical
  rw [Finset.card_eq_sum_card_fiberwise (f := firstSib)
    (t := S.filter fun a => ∀ i, a.pos i % 2 = 0)]
  · rw [Finset.sum_const_nat (m := 2 ^ d), mul_comm]
    intro p hp
    obtain ⟨hp1, hp2⟩ := Finset.mem_filter.1 hp
    have hc : (Finset.univ : Finset (Fin d → Fin 2)).card = 2 ^ d := by simp
    rw [← hc]
    symm
    refine Finset.card_bij (fun s _ => (⟨p.level, fun i => p.pos i + s i⟩ : Oct d)) ?_ ?_ ?_
    · intro s _
      refine Finset.mem_filter.2 ⟨h p hp1 _ ⟨rfl, fun i => ?_⟩, Oct.ext' rfl fun i => ?_⟩
      · have h1 := hp2 i
        have h2 := (s i).2
        simp only
        omega
      · have h1 := hp2 i
        have h2 := (s i).2
        simp only [firstSib]
        omega
    · intro s _ t _ e
      funext i
      have := congrFun (congrArg Oct.pos e) i
      simp only at this
      exact Fin.ext (by omega)
    · intro a ha
      obtain ⟨ha1, ha2⟩ := Finset.mem_filter.1 ha
      subst ha2
      refine ⟨fun i => ⟨a.pos i % 2, by omega⟩, Finset.mem_univ _, Oct.ext' rfl fun i => ?_⟩
      simp only [firstSib]
      omega
  · intro a ha
    refine Finset.mem_coe.2 (Finset.mem_filter.2 ⟨h a ha _ ⟨rfl, fun i => ?_⟩, fun i => ?_⟩)
    · simp only [firstSib]; omega
    · simp only [firstSib]; omega

/-- The array allocated by `adapt_apply` has the size of what is written. -/
theorem newSize_eq {M : Finset (Oct d)} (owner : Oct d → Fin P) {f : Oct d → ℤ}
    (hf : ∀ a ∈ M, -1 ≤ f a ∧ f a ≤ 1) (hC : Clean M owner f) (r : Fin P) (l : List (Oct d))
    (hn : l.Nodup) (hl : ∀ a, a ∈ l ↔ a ∈ M ∧ owner a = r) :
    newSize f l = (newLeaves f l).length := by
  obtain ⟨h1, -⟩ := length_written f l fun a ha => hf a ((hl a).1 ha).1
  have hcount : ∀ p : Oct d → Prop, ∀ [DecidablePred p],
      (l.countP fun a => p a) = (l.toFinset.filter p).card := by
    intro p _
    rw [List.countP_eq_length_filter, ← List.toFinset_card_of_nodup (hn.filter _)]
    congr 1
    ext a
    simp
  have h2 : (l.countP fun a => f a = -1) =
      2 ^ d * (l.countP fun a => f a = -1 ∧ ∀ i, a.pos i % 2 = 0) := by
    rw [hcount fun a => f a = -1, hcount fun a => f a = -1 ∧ ∀ i, a.pos i % 2 = 0,
      card_family (l.toFinset.filter fun a => f a = -1), Finset.filter_filter]
    intro a ha s hs
    simp only [Finset.mem_filter, List.mem_toFinset, hl] at ha ⊢
    obtain ⟨⟨h3, h4⟩, h5⟩ := ha
    obtain ⟨h6, h7, h8⟩ := hC a h3 h5 s hs
    exact ⟨⟨h6, h8.trans h4⟩, h7⟩
  rw [h1]
  unfold newSize
  simp only
  rw [h2, Nat.mul_div_cancel_left _ (by positivity)]

/-! ### C80 -/

/-- **C80** (partial: the markers are not the least correction when there are several ranks, see
`C80_distribution_fails`) The correction ends, whatever the distribution over ranks. Requested
refinements happen. Coarsening is done for whole families, which were requested and belong to one rank
(so that remapping never needs a ghost, see C30). The new mesh tiles the domain, is 2:1 balanced and
not finer than allowed. Each rank fills its new array exactly. -/
theorem C80_adapt_partial {G : Grid d} (hG : G.WF) {M : Finset (Oct d)} (hM : Tiling G M)
    (hB : Balanced G M) (D : Dist d P) (hD : GhostComplete G M D.owner D.ghost) (mk : Oct d → ℤ)
    (h : Asked G M mk) (innerFuel fuel : ℕ) (h1 : 2 * M.card < innerFuel) (h2 : 2 * M.card < fuel) :
    ∃ f, adaptMarkers G D M innerFuel fuel mk = some f ∧
      (∀ a ∈ M, mk a = 1 → f a = 1) ∧
      (∀ a ∈ M, f a = -1 → mk a = -1 ∧
        ∀ s, Sibling s a → s ∈ M ∧ f s = -1 ∧ D.owner s = D.owner a) ∧
      Remap.Together M f D.owner ∧
      (∀ a ∈ M, f a = -1 ∨ f a = 0 ∨ f a = 1) ∧
      Tiling G (newMesh f M) ∧ Balanced G (newMesh f M) ∧
      (∀ lmax : ℕ, (∀ a ∈ M, a.level ≤ lmax) → (∀ a ∈ M, (a.level : ℤ) + mk a ≤ lmax) →
        ∀ o ∈ newMesh f M, G.lmin ≤ o.level ∧ o.level ≤ lmax) ∧
      ∀ r, ∀ l : List (Oct d), l.Nodup → (∀ a, a ∈ l ↔ a ∈ M ∧ D.owner a = r) →
        newSize f l = (newLeaves f l).length := by
  obtain ⟨f, e, hA, hC, hle, hAd, hup⟩ := adaptMarkers_spec hG hM hB D hD mk h innerFuel fuel h1 h2
  have hval : ∀ a ∈ M, -1 ≤ f a ∧ f a ≤ 1 := fun a ha => ⟨hA.lower a ha, hA.upper a ha⟩
  refine ⟨f, e, fun a ha h3 => ?_, fun a ha h3 => ⟨?_, hC a ha h3⟩,
    fun a ha h3 s hs => (hC a ha h3 s hs).2.2, fun a ha => ?_,
    newMesh_tiling hG hM hAd hval hA.coarsest, newMesh_balanced hG hM hAd hA.coarsest hA.lower,
    fun lmax hlev hmax => ?_, fun r l hn hl => newSize_eq D.owner hval hC r l hn hl⟩
  · have := hle a ha
    have := hval a ha
    omega
  · have := hle a ha
    have := h.lower a ha
    omega
  · have := hval a ha
    omega
  · have hA' : Admissible G M (fun a => min 1 ((lmax : ℤ) - a.level)) := by
      constructor
      · intro a ha b hb ht
        have h6 := hB b hb a ha ht.symm
        have h7 := hlev a ha
        have h8 := hlev b hb
        omega
      · intro a ha h6
        have := hlev a ha
        omega
    have hle' := hup _ hA' (fun r a ha _ => by
        have := hlev a ha
        omega) (fun a ha => by
        have := hmax a ha
        have := h.upper a ha
        omega)
    intro o ho
    obtain ⟨a, ha, h6⟩ := (mem_newMesh hAd o).1 ho
    refine ⟨(h6.valid hM hA.coarsest ha).1, ?_⟩
    have h7 := h6.level (target_nonneg hM hA ha)
    have h8 := hle' a ha
    omega

/-- **C80** On one rank the markers are the least correction, as for `AMRmesh_hashmap_new` (C10). -/
theorem C80_one_rank_least {G : Grid d} (hG : G.WF) {M : Finset (Oct d)} (hM : Tiling G M)
    (hB : Balanced G M) (D : Dist d 1) (mk : Oct d → ℤ) (hg : ∀ r, D.ghost r = ∅)
    (h : Asked G M mk) (innerFuel fuel : ℕ) (h1 : 2 * M.card < innerFuel) (h2 : 2 * M.card < fuel) :
    ∃ f, adaptMarkers G D M innerFuel fuel mk = some f ∧ LeastCorrection G M mk f := by
  have hD : GhostComplete G M D.owner D.ghost := fun r =>
    ⟨fun b hb => by simp [hg] at hb, fun a _ _ b _ hb _ => absurd (Subsingleton.elim _ _) hb⟩
  obtain ⟨f, e, -, -, hle, hAd, hup⟩ := adaptMarkers_spec hG hM hB D hD mk h innerFuel fuel h1 h2
  exact ⟨f, e, hle, hAd, fun mk' hA hl => hup mk' hA
    (fun r a _ hne => absurd (Subsingleton.elim _ _) hne) hl⟩

/-! ### Concrete cases -/

/-- Coarsen the fine leaves of `exMesh`. -/
def exCoarsen (o : Oct 2) : ℤ := if o.level = 2 then -1 else 0

theorem exCoarsen_asked : Asked exGrid exMesh.toFinset exCoarsen := by
  refine ⟨?_, ?_, ?_, ?_⟩ <;> decide

theorem exMark_asked : Asked exGrid exMesh.toFinset exMark := by
  refine ⟨?_, ?_, ?_, ?_⟩ <;> decide

/-- Two ranks, the second with the last of the fine leaves and the coarse ones. -/
def exSplit : Dist 2 2 where
  owner o := if o.level = 2 ∧ ¬ (o.pos 0 = 1 ∧ o.pos 1 = 1) then 0 else 1
  ghost r := exMesh.toFinset.filter fun o =>
    (if o.level = 2 ∧ ¬ (o.pos 0 = 1 ∧ o.pos 1 = 1) then 0 else 1) ≠ r

theorem exSplit_ghost : GhostComplete exGrid exMesh.toFinset exSplit.owner exSplit.ghost := by
  intro r
  refine ⟨fun b hb => (Finset.mem_filter.1 hb).1, fun a _ _ b hb hne _ => ?_⟩
  exact Finset.mem_filter.2 ⟨hb, hne⟩

/-- **C80 fails** without `_partial`: with the same mesh and the same request, one rank coarsens the
family, while on two ranks that share it nothing happens: the markers of ghosts are dropped before they
are read (L216). Both distributions meet the hypotheses of `C80_adapt_partial`. -/
theorem C80_distribution_fails :
    (adaptMarkers exGrid oneRank exMesh.toFinset 15 15 exCoarsen).map (fun f => exMesh.map f) =
      some (exMesh.map exCoarsen) ∧
    (adaptMarkers exGrid exSplit exMesh.toFinset 15 15 exCoarsen).map (fun f => exMesh.map f) =
      some (exMesh.map fun _ => 0) ∧
    exMesh.map exCoarsen ≠ exMesh.map (fun _ => 0) := by
  refine ⟨?_, ?_, ?_⟩
  · decide +kernel
  · decide +kernel
  · decide

/-- A case that meets the hypotheses, with refinement forced by 2:1 balance across ranks and a family
that is not coarsened because one of its members is refined. -/
example : (∃ f, adaptMarkers exGrid exDist exMesh.toFinset 15 15 exMark = some f ∧
      (∀ a ∈ exMesh.toFinset, exMark a = 1 → f a = 1) ∧ Tiling exGrid (newMesh f exMesh.toFinset)) ∧
    stepOct exGrid (localMap exDist exMesh.toFinset 1) exMark ⟨1, ![1, 1]⟩ = some 1 ∧
    cleanOct exGrid (localMap exDist exMesh.toFinset 0) exMark ⟨2, ![0, 0]⟩ = some 0 := by
  refine ⟨?_, by decide +kernel, by decide +kernel⟩
  obtain ⟨f, e, h1, -, -, -, h2, -⟩ := C80_adapt_partial exGrid_wf exMesh_tiling exMesh_balanced exDist
    exDist_ghost exMark exMark_asked 15 15 (by decide) (by decide)
  exact ⟨f, e, h1, h2⟩

/-- The hypotheses of the one rank case. -/
example : ∃ f, adaptMarkers exGrid oneRank exMesh.toFinset 15 15 exMark = some f ∧
    LeastCorrection exGrid exMesh.toFinset exMark f :=
  C80_one_rank_least exGrid_wf exMesh_tiling exMesh_balanced oneRank exMark (fun _ => rfl)
    exMark_asked 15 15 (by decide) (by decide)

/-- Both distributions of `C80_distribution_fails` meet the hypotheses. -/
example : GhostComplete exGrid exMesh.toFinset exSplit.owner exSplit.ghost ∧
    Asked exGrid exMesh.toFinset exCoarsen := ⟨exSplit_ghost, exCoarsen_asked⟩

/-- Coarsening to level 0, where `AMRmesh_hashmap_new` loses the mesh
(`C13_coarsen_to_level_zero_fails`). -/
example : (adaptMarkers (zeroGrid false) oneRank quadMesh.toFinset 9 9 (fun _ => -1)).map
      (fun f => newMesh f quadMesh.toFinset) = some {⟨0, ![0, 0]⟩} := by decide +kernel

end Verif.AdaptOld
