import Verif.Adapt.Check
import Mathlib.Algebra.BigOperators.Group.Finset.Basic
import Mathlib.Algebra.Order.BigOperators.Group.Finset

/-!
# The marker correction loops converge to the least admissible marking
-/

namespace Verif.Adapt

open Verif.Octree

variable {d : ℕ} {P : ℕ}

/-- On a rank with a complete ghost layer the check gives the result of the whole mesh. -/
theorem checkOct_local {G : Grid d} (hG : G.WF) {M : Finset (Oct d)} (hM : Tiling G M)
    (D : Dist d P) (hD : GhostComplete G M D.owner D.ghost) (mk : Oct d → ℤ) {a : Oct d}
    (ha : a ∈ M) : checkOct G (localMap D M (D.owner a)) mk a = checkOct G M mk a := by
  have hc : ∀ off, findNeighbors G (localMap D M (D.owner a)) a off = findNeighbors G M a off := by
    apply findNeighbors_congr hG hM _ ha
    · intro b hb ht
      unfold localMap
      rw [Finset.mem_union, Finset.mem_filter]
      by_cases h : D.owner b = D.owner a
      · exact Or.inl ⟨hb, h⟩
      · exact Or.inr ((hD (D.owner a)).2 a ha rfl b hb h ht)
    · intro b hb
      unfold localMap at hb
      rw [Finset.mem_union, Finset.mem_filter] at hb
      rcases hb with h | h
      · exact h.1
      · exact (hD _).1 b h
  have h1 : checkSibling G (localMap D M (D.owner a)) mk a = checkSibling G M mk a := by
    funext m off; simp only [checkSibling, hc]
  have h2 : checkDirection G (localMap D M (D.owner a)) mk a = checkDirection G M mk a := by
    funext m off; simp only [checkDirection, hc]
  unfold checkOct
  rw [h1, h2]

theorem localOK_one {G : Grid d} {M : Finset (Oct d)} (hB : Balanced G M) {mk : Oct d → ℤ}
    (hr : Requested G M mk) {a : Oct d} (ha : a ∈ M) : LocalOK G M mk a 1 := by
  refine ⟨hr.upper a ha, fun _ _ => by omega, fun b hb ht => ?_⟩
  have h1 := hB b hb a ha ht.symm
  have h2 := hr.upper b hb
  omega

theorem localOK_of_admissible {G : Grid d} {M : Finset (Oct d)} {mk mk' : Oct d → ℤ}
    (hr : Requested G M mk) (hA : Admissible G M mk') (hle : ∀ a ∈ M, mk a ≤ mk' a)
    {a : Oct d} (ha : a ∈ M) : LocalOK G M mk a (mk' a) := by
  refine ⟨hle a ha, fun h1 h2 => ?_, fun b hb ht => ?_⟩
  · by_contra hc
    apply h2
    intro s hs
    have h3 := hle a ha
    obtain ⟨h4, h5⟩ := hA.sib a ha (by omega) s hs
    have h6 := hle s h4
    have h7 := hr.lower s h4
    exact ⟨h4, by omega⟩
  · have h1 := hA.two a ha b hb ht
    have h2 := hle b hb
    omega

theorem admissible_of_localOK {G : Grid d} {M : Finset (Oct d)} {mk : Oct d → ℤ}
    (h : ∀ a ∈ M, LocalOK G M mk a (mk a)) : Admissible G M mk := by
  refine ⟨fun a ha b hb ht => (h a ha).2.2 b hb ht, fun a ha h1 => ?_⟩
  by_contra hc
  have := (h a ha).2.1 h1 hc
  omega

/-- Room left for markers to grow. -/
def room (M : Finset (Oct d)) (mk : Oct d → ℤ) : ℕ := ∑ a ∈ M, (1 - mk a).toNat

theorem room_le {G : Grid d} {M : Finset (Oct d)} {mk : Oct d → ℤ} (hr : Requested G M mk) :
    room M mk ≤ 2 * M.card := by
  unfold room
  calc ∑ a ∈ M, (1 - mk a).toNat ≤ ∑ _a ∈ M, 2 := by
        apply Finset.sum_le_sum
        intro a ha
        have := hr.lower a ha
        omega
    _ = 2 * M.card := by rw [Finset.sum_const, smul_eq_mul, mul_comm]

theorem room_lt {G : Grid d} {M : Finset (Oct d)} {f g : Oct d → ℤ} (hg : Requested G M g)
    (hle : ∀ a ∈ M, f a ≤ g a) (hlt : ∃ a ∈ M, f a < g a) : room M g < room M f := by
  unfold room
  apply Finset.sum_lt_sum
  · intro a ha
    have := hle a ha
    omega
  · obtain ⟨a, ha, h⟩ := hlt
    refine ⟨a, ha, ?_⟩
    have := hg.upper a ha
    omega

theorem requested_read {G : Grid d} {M : Finset (Oct d)} (D : Dist d P) (r : Fin P)
    {frozen cur : Oct d → ℤ} (h1 : Requested G M frozen) (h2 : Requested G M cur) :
    Requested G M (readMarker D r frozen cur) := by
  constructor <;> intro a ha
  · unfold readMarker; split
    · exact h2.lower a ha
    · exact h1.lower a ha
  · unfold readMarker; split
    · exact h2.upper a ha
    · exact h1.upper a ha
  · unfold readMarker; split
    · exact h2.coarsest a ha
    · exact h1.coarsest a ha
  · unfold readMarker; split
    · exact h2.target a ha
    · exact h1.target a ha
  · exact h1.bound a ha

section
variable {G : Grid d} (hG : G.WF) {M : Finset (Oct d)} (hM : Tiling G M) (hB : Balanced G M)
  (D : Dist d P) (hD : GhostComplete G M D.owner D.ghost)
include hG hM hB hD

/-- One pass: succeeds, and every own leaf gets the least locally correct marker. -/
theorem pass_spec (r : Fin P) {frozen cur : Oct d → ℤ} (h1 : Requested G M frozen)
    (h2 : Requested G M cur) :
    ∃ new, pass G D M r frozen cur = some new ∧
      (∀ a ∈ M, D.owner a = r → LocalOK G M (readMarker D r frozen cur) a (new a) ∧
        ∀ x, LocalOK G M (readMarker D r frozen cur) a x → new a ≤ x) ∧
      (∀ a, ¬ (a ∈ M ∧ D.owner a = r) → new a = cur a) := by
  have hrd := requested_read D r h1 h2
  have key : ∀ a ∈ M, D.owner a = r → ∃ x,
      checkOct G (localMap D M r) (readMarker D r frozen cur) a = some x ∧
      LocalOK G M (readMarker D r frozen cur) a x ∧
        ∀ y, LocalOK G M (readMarker D r frozen cur) a y → x ≤ y := by
    intro a ha ho
    rw [← ho, checkOct_local hG hM D hD _ ha, ho]
    exact checkOct_spec hG hM hB _ hrd ha
  unfold pass
  rw [if_pos]
  · refine ⟨_, rfl, ?_, ?_⟩
    · intro a ha ho
      obtain ⟨x, e, h⟩ := key a ha ho
      simp only [if_pos (And.intro ha ho), e, Option.getD_some]
      exact h
    · intro a hn
      simp only [if_neg hn]
  · intro a ha ho
    obtain ⟨x, e, -⟩ := key a ha ho
    rw [e]; rfl

omit hG hM hD in
theorem requested_pass (r : Fin P) {frozen cur new : Oct d → ℤ} (h1 : Requested G M frozen)
    (h2 : Requested G M cur)
    (hnew : ∀ a ∈ M, D.owner a = r → LocalOK G M (readMarker D r frozen cur) a (new a) ∧
        ∀ x, LocalOK G M (readMarker D r frozen cur) a x → new a ≤ x)
    (hother : ∀ a, ¬ (a ∈ M ∧ D.owner a = r) → new a = cur a) :
    Requested G M new ∧ ∀ a ∈ M, cur a ≤ new a := by
  have hrd := requested_read D r h1 h2
  have hle : ∀ a ∈ M, cur a ≤ new a := by
    intro a ha
    by_cases ho : D.owner a = r
    · have := (hnew a ha ho).1.1
      unfold readMarker at this
      rwa [if_pos ho] at this
    · rw [hother a (fun h => ho h.2)]
  refine ⟨⟨fun a ha => le_trans (h2.lower a ha) (hle a ha), fun a ha => ?_, fun a ha h => ?_,
    fun a ha => ?_, h2.bound⟩, hle⟩
  · by_cases ho : D.owner a = r
    · exact (hnew a ha ho).2 1 (localOK_one hB hrd ha)
    · rw [hother a (fun h => ho h.2)]
      exact h2.upper a ha
  · have h3 := hle a ha
    have h4 := h2.lower a ha
    exact h2.coarsest a ha (by omega)
  · have h3 := hle a ha
    have h4 := h2.target a ha
    omega

/-- The inner loop of a rank. -/
theorem innerLoop_spec (r : Fin P) {frozen : Oct d → ℤ} (h1 : Requested G M frozen) (fuel : ℕ)
    (cur : Oct d → ℤ) (upd : Bool) (h2 : Requested G M cur) (hf : room M cur < fuel) :
    ∃ f u, innerLoop G D M r frozen fuel cur upd = some (f, u) ∧ Requested G M f ∧
      (∀ a ∈ M, cur a ≤ f a) ∧
      (∀ mk', Admissible G M mk' → (∀ a ∈ M, frozen a ≤ mk' a) → (∀ a ∈ M, cur a ≤ mk' a) →
        ∀ a ∈ M, f a ≤ mk' a) ∧
      (u = false → upd = false ∧ ∀ a ∈ M, D.owner a = r →
        f a = cur a ∧ LocalOK G M (readMarker D r frozen cur) a (cur a)) ∧
      (u = true → upd = true ∨ ∃ a ∈ M, D.owner a = r ∧ cur a < f a) := by
  induction fuel generalizing cur upd with
  | zero => omega
  | succ fuel ih =>
    obtain ⟨new, e, hnew, hother⟩ := pass_spec hG hM hB D hD r h1 h2
    obtain ⟨h3, hle⟩ := requested_pass hB D r h1 h2 hnew hother
    have hrd := requested_read D r h1 h2
    have hup : ∀ mk', Admissible G M mk' → (∀ a ∈ M, frozen a ≤ mk' a) →
        (∀ a ∈ M, cur a ≤ mk' a) → ∀ a ∈ M, new a ≤ mk' a := by
      intro mk' hA hfr hcu a ha
      by_cases ho : D.owner a = r
      · apply (hnew a ha ho).2
        apply localOK_of_admissible hrd hA _ ha
        intro b hb
        unfold readMarker
        split
        · exact hcu b hb
        · exact hfr b hb
      · rw [hother a (fun h => ho h.2)]
        exact hcu a ha
    unfold innerLoop
    rw [e]
    simp only [Option.bind_some]
    by_cases hstop : ∀ a ∈ M, D.owner a = r → new a = cur a
    · rw [if_pos hstop]
      refine ⟨new, upd, rfl, h3, hle, hup, fun hu => ⟨hu, fun a ha ho => ?_⟩, fun hu => Or.inl hu⟩
      have := hstop a ha ho
      exact ⟨this, by rw [← this]; exact (hnew a ha ho).1⟩
    · rw [if_neg hstop]
      push Not at hstop
      obtain ⟨a, ha, ho, hne⟩ := hstop
      have hlt : cur a < new a := lt_of_le_of_ne (hle a ha) (Ne.symm hne)
      have hroom := room_lt h3 hle ⟨a, ha, hlt⟩
      obtain ⟨f, u, e2, h4, h5, h6, h7, h8⟩ := ih new true h3 (by omega)
      refine ⟨f, u, e2, h4, fun b hb => le_trans (hle b hb) (h5 b hb), ?_, ?_, ?_⟩
      · intro mk' hA hfr hcu
        exact h6 mk' hA hfr (hup mk' hA hfr hcu)
      · intro hu
        exact absurd (h7 hu).1 (by simp)
      · intro _
        exact Or.inr ⟨a, ha, ho, lt_of_lt_of_le hlt (h5 a ha)⟩

/-- The outer loop. -/
theorem outerLoop_spec (innerFuel : ℕ) (hif : 2 * M.card < innerFuel) (fuel : ℕ)
    (mk : Oct d → ℤ) (h1 : Requested G M mk) (hf : room M mk < fuel) :
    ∃ f, outerLoop G D M innerFuel fuel mk = some f ∧ Requested G M f ∧
      LeastCorrection G M mk f := by
  induction fuel generalizing mk with
  | zero => omega
  | succ fuel ih =>
    have hroom := room_le h1
    have key := fun r => innerLoop_spec hG hM hB D hD r h1 innerFuel mk false h1 (by omega)
    choose F U e hF hle hup hfalse htrue using key
    unfold outerLoop
    rw [if_pos (fun r => by rw [e r]; rfl)]
    simp only [e, Option.map_some, Option.some.injEq]
    have hnew : Requested G M (fun o => F (D.owner o) o) :=
      ⟨fun a ha => (hF _).lower a ha, fun a ha => (hF _).upper a ha,
        fun a ha => (hF _).coarsest a ha, fun a ha => (hF _).target a ha,
        fun a ha => h1.bound a ha⟩
    by_cases hu : ∃ r, U r = true
    · rw [if_pos hu]
      obtain ⟨r, hr⟩ := hu
      obtain ⟨a, ha, ho, hlt⟩ := (htrue r hr).resolve_left (by simp)
      have hlt2 := room_lt hnew (fun a ha => hle (D.owner a) a ha) ⟨a, ha, by rw [ho]; exact hlt⟩
      obtain ⟨f, e2, hR, h3, h4, h5⟩ := ih (fun o => F (D.owner o) o) hnew (by omega)
      refine ⟨f, e2, hR, fun a ha => le_trans (hle _ a ha) (h3 a ha), h4, ?_⟩
      intro mk' hA hmk'
      apply h5 mk' hA
      intro a ha
      exact hup _ mk' hA hmk' hmk' a ha
    · rw [if_neg hu]
      have hU : ∀ r, U r = false := fun r => by
        by_contra h
        exact hu ⟨r, by simpa using h⟩
      refine ⟨_, rfl, hnew, fun a ha => hle _ a ha, ?_, ?_⟩
      · have hsame : ∀ a ∈ M, F (D.owner a) a = mk a := fun a ha =>
          ((hfalse _ (hU _)).2 a ha rfl).1
        apply admissible_of_localOK
        intro a ha
        obtain ⟨h3, h4, h5, h6⟩ := (hfalse _ (hU (D.owner a))).2 a ha rfl
        have hrm : ∀ b, readMarker D (D.owner a) mk mk b = mk b := by
          intro b; unfold readMarker; split <;> rfl
        rw [h3]
        refine ⟨le_of_eq h3, fun h7 h8 => ?_, fun b hb ht => ?_⟩
        · rw [hrm] at h5
          simp only [h3] at h7
          apply h5 h7
          intro hc
          apply h8
          intro s hs
          have := hc s hs
          rw [hrm] at this
          exact ⟨this.1, by simp only [hsame s this.1]; exact this.2⟩
        · have := h6 b hb ht
          rw [hrm] at this
          simp only [hsame b hb]
          exact this
      · intro mk' hA hmk' a ha
        exact hup _ mk' hA hmk' hmk' a ha

end

/-- The least correction is unique on the leaves. -/
theorem LeastCorrection.unique {G : Grid d} {M : Finset (Oct d)} {mk f g : Oct d → ℤ}
    (hf : LeastCorrection G M mk f) (hg : LeastCorrection G M mk g) : ∀ a ∈ M, f a = g a :=
  fun a ha => le_antisymm (hf.2.2 g hg.2.1 hg.1 a ha) (hg.2.2 f hf.2.1 hf.1 a ha)

end Verif.Adapt
