import Verif.Run.Props
import Verif.Partition.Coherent
import Mathlib.Tactic.FinCases

/-!
# C81: runs that never fail
-/

namespace Verif.Run

open Verif.Octree Verif.Adapt Verif.Partition

variable {d P : ℕ}

/-! ### Specification -/

/-- The leaves inside an octant of the coarsest level are all on one rank. -/
def Whole (G : Grid d) (s : Ranks d P) : Prop :=
  ∀ c : Oct d, c.level = G.lmin → ∀ r r' a b, a ∈ s.octs r → b ∈ s.octs r' → Anc c a → Anc c b → r = r'

/-- No octant of level `l` contains more leaves than the share of a rank. -/
def Small (P : ℕ) (M : Finset (Oct d)) (l : ℕ) : Prop :=
  ∀ c : Oct d, c.level = l → ∀ F ⊆ M, (∀ x ∈ F, Anc c x) → F.card ≤ M.card / P

/-! ### Proofs -/

/-- The octants written for `a` are in the same coarse octant. -/
theorem anc_of_written {c a o : Oct d} {m : ℤ} (ho : o ∈ written m a) (hc : Anc c o) (hl : c.level ≤ a.level)
    (h1 : m = -1 → 1 ≤ a.level) : Anc c a := by
  unfold written at ho
  split at ho
  · obtain ⟨h2, h3⟩ := (mem_children a o).1 ho
    exact hc.linear (child_anc h2 h3) hl
  · split at ho
    · rw [List.mem_singleton] at ho; rw [← ho]; exact hc
    · split at ho
      · next hm =>
        split at ho
        · rw [List.mem_singleton] at ho
          subst ho
          refine hc.trans ⟨Nat.sub_le _ _, fun i => ?_⟩
          have := h1 hm
          have e : a.level - (parent a).level = 1 := by unfold parent; simp only; omega
          rw [e, pow_one]
          rfl
        · cases ho
      · cases ho

variable [NeZero P] {e L : ℕ} {G : Grid d}

/-- Siblings above the coarsest level are on the same rank. -/
theorem Whole.siblings {s : Ranks d P} (hw : Whole G s) {a b : Oct d} (ha : a ∈ s.mesh) (hb : b ∈ s.mesh)
    (hl : G.lmin < a.level) (hs : Sibling b a) : owner s.octs b = owner s.octs a := by
  have h1 := up_anc a (le_of_lt hl)
  refine hw (up a G.lmin) rfl _ _ b a (owner_mem _ hb) (owner_mem _ ha) ⟨?_, fun i => ?_⟩ h1
  · rw [hs.1]; exact h1.1
  · have e1 : a.level - G.lmin = (a.level - G.lmin - 1) + 1 := by omega
    simp only [up]
    rw [hs.1, e1, pow_succ', ← Nat.div_div_eq_div_mul, ← Nat.div_div_eq_div_mul, hs.2 i]

/-- If families that are coarsened are not split, every rank keeps an octant. -/
theorem keeps_octant {s : Ranks d P} (h : Good e L G s) {f : Oct d → ℤ} (hf : Admissible G s.mesh f)
    (hr : ∀ a ∈ s.mesh, -1 ≤ f a ∧ f a ≤ 1)
    (ht : ∀ a ∈ s.mesh, f a = -1 → ∀ b, Sibling b a → owner s.octs b = owner s.octs a) (r : Fin P) :
    newLeaves f (s.octs r) ≠ [] := by
  obtain ⟨a, ha⟩ := List.exists_mem_of_ne_nil _ (h.nonempty r)
  have haM : a ∈ s.mesh := (mem_leaves _ _).2 ⟨r, ha⟩
  have hra := hr a haM
  have key : ∃ b ∈ s.octs r, written (f b) b ≠ [] := by
    by_cases h1 : f a = -1
    · let b : Oct d := ⟨a.level, fun i => a.pos i / 2 * 2⟩
      have hsb : Sibling b a := ⟨rfl, fun i => by simp [b]⟩
      obtain ⟨hbM, hfb⟩ := hf.sib a haM h1 b hsb
      have hob := ht a haM h1 b hsb
      have hoa : owner s.octs a = r := h.rank_unique (owner_mem _ haM) ha
      refine ⟨b, by have := owner_mem s.octs hbM; rwa [hob, hoa] at this, ?_⟩
      rw [hfb]
      simp [written, b]
    · refine ⟨a, ha, ?_⟩
      unfold written
      by_cases h2 : f a = 1
      · rw [if_pos h2]
        refine List.ne_nil_of_length_pos ?_
        simp [children]
      · rw [if_neg h2, if_pos (by omega)]
        simp
  obtain ⟨b, hb, hw⟩ := key
  obtain ⟨o, ho⟩ := List.exists_mem_of_ne_nil _ hw
  exact List.ne_nil_of_mem (List.mem_flatMap.2 ⟨b, hb, ho⟩)

theorem whole_start {s : Ranks d P} (h : Good e L G s) (hl : ∀ o ∈ s.mesh, o.level = G.lmin) : Whole G s := by
  intro c hc r r' a b ha hb hca hcb
  have h1 := hl a ((mem_leaves _ _).2 ⟨r, ha⟩)
  have h2 := hl b ((mem_leaves _ _).2 ⟨r', hb⟩)
  have e1 := hca.eq_of_level (by omega)
  have e2 := hcb.eq_of_level (by omega)
  rw [← e1] at ha
  rw [← e2] at hb
  exact h.rank_unique ha hb

theorem whole_newLeaves {s s' : Ranks d P} (h : Good e L G s) (hw : Whole G s) {f : Oct d → ℤ}
    (hc : ∀ a ∈ s.mesh, f a = -1 → G.lmin < a.level) (h' : ∀ r, s'.octs r = newLeaves f (s.octs r)) : Whole G s' := by
  intro c hcl r r' a b ha hb hca hcb
  rw [h'] at ha hb
  obtain ⟨a0, ha0, ha⟩ := List.mem_flatMap.1 ha
  obtain ⟨b0, hb0, hb⟩ := List.mem_flatMap.1 hb
  have ha0M : a0 ∈ s.mesh := (mem_leaves _ _).2 ⟨r, ha0⟩
  have hb0M : b0 ∈ s.mesh := (mem_leaves _ _).2 ⟨r', hb0⟩
  have h1 := (h.levels a0 ha0M).1
  have h2 := (h.levels b0 hb0M).1
  exact hw c hcl r r' a0 b0 ha0 hb0
    (anc_of_written ha hca (by omega) fun hm => by have := hc a0 ha0M hm; omega)
    (anc_of_written hb hcb (by omega) fun hm => by have := hc b0 hb0M hm; omega)

theorem whole_balance (hG : G.WF) (hde : d ≤ e) (h64 : e * L < 64) {s s' : Ranks d P} (h : Good e L G s) {level : ℕ}
    (hl : level ≤ L) (hlm : L ≤ G.lmin + level) (hsm : Small P s.mesh (L - level))
    (hb : balance e L G level s = some s') : Whole G s' := by
  have hne : ∀ l ∈ List.ofFn s.octs, l ≠ [] := by
    intro l hl
    rw [List.mem_ofFn] at hl
    obtain ⟨r, rfl⟩ := hl
    exact h.nonempty r
  have hP := pos_of_neZero P
  have h0 : (List.ofFn s.octs).getD 0 [] ≠ [] := by
    rw [List.getD_eq_getElem _ _ (by simpa using hP), getElem_ofFn']
    exact h.nonempty _
  have hL : ∀ b ∈ s.mesh, b.level ≤ L := fun b hb => (h.levels b hb).2
  obtain ⟨ls, I, e1, e2⟩ := C17_no_group_split hG h.tiling hde hL h64 h.distributed h0 (length_le_of_nonempty _ hne)
    level (by
      intro c hc F hF hx
      rw [List.length_ofFn]
      exact hsm c (by omega) F hF hx)
  obtain ⟨ls1, I1, e1', hlen, -⟩ := C16_loadBalance_permutes hG h.tiling hde hL h64 h.distributed h0
    (length_le_of_nonempty _ hne) level
  rw [e1] at e1'
  cases e1'
  rw [List.length_ofFn] at hlen
  unfold balance at hb
  rw [e1, Option.map_some, Option.some.injEq] at hb
  subst hb
  intro c hcl r r' a b ha hb hca hcb
  have hr : (r : ℕ) < ls.length := by rw [hlen]; exact r.2
  have hr' : (r' : ℕ) < ls.length := by rw [hlen]; exact r'.2
  change a ∈ ls.getD r [] at ha
  change b ∈ ls.getD r' [] at hb
  rw [List.getD_eq_getElem _ _ hr] at ha
  rw [List.getD_eq_getElem _ _ hr'] at hb
  have hup := up_anc c (show L - level ≤ c.level by omega)
  exact Fin.ext (e2 r r' hr hr' (up c (L - level)) (by simp only [up]; omega) a ha b hb (hup.trans hca) (hup.trans hcb))

variable (hG : G.WF) (hd : 0 < d) (hde : d ≤ e) (h64 : e * L < 64) (hL : G.lmin ≤ L) (hT : ∏ i, G.coarse i < 2 ^ 32)
  (hP : P ≤ ∏ i, G.coarse i)

include hG hd hde h64 hL hT hP

/-- **C81.** A run fails only because of load balancing that splits coarse octants: at the start every coarse octant is
on one rank; as long as this is so, `adapt` succeeds for all markers, and it stays so; load balancing keeps it so if
its compact levels reach up to the coarsest level and no block of this size has more leaves than the share of a
rank. -/
theorem C81_whole_never_fails :
    (∀ s : Ranks d P, start e G = some s → Whole G s) ∧
    ∀ (mks : List (Oct d → ℤ)) (s : Ranks d P), Reach e L G mks s → Whole G s →
      (∀ mk, Requested G s.mesh mk → (∀ a ∈ s.mesh, (a.level : ℤ) + mk a ≤ L) →
        ∃ s', adapt e L G mk s = some s' ∧ Whole G s') ∧
      ∀ level ≤ L, L ≤ G.lmin + level → Small P s.mesh (L - level) →
        ∃ s', balance e L G level s = some s' ∧ Whole G s' := by
  refine ⟨fun s h => ?_, fun mks s h hw => ⟨fun mk hr hmax => ?_, fun level h1 h2 h3 => ?_⟩⟩
  · obtain ⟨s0, h1, h2, h3⟩ := start_spec (P := P) (e := e) (L := L) hG hd hde hL hT hP
    rw [h] at h1
    cases h1
    exact whole_start h2 fun o ho => ((h3 o).1 ho).1
  · have hg := (reach_good hG hd hde h64 hL hT hP h).1
    obtain ⟨f, h1, h2, -, h4⟩ := adapt_spec hG hde h64 hg hr hmax
    have hc : ∀ a ∈ s.mesh, f a = -1 → G.lmin < a.level := fun a ha hfa => by
      have := h1.1 a ha
      have := hr.lower a ha
      exact hr.coarsest a ha (by omega)
    obtain ⟨s', e1, h5, h6, -⟩ := h4 (keeps_octant hg h1.2.1 h2 fun a ha hfa b hs =>
      hw.siblings ha (h1.2.1.sib a ha hfa b hs).1 (hc a ha hfa) hs)
    exact ⟨s', e1, whole_newLeaves hg hw hc h6⟩
  · have hg := (reach_good hG hd hde h64 hL hT hP h).1
    obtain ⟨s', e1, -⟩ := balance_spec hG hde h64 hg level
    exact ⟨s', e1, whole_balance hG hde h64 hg h1 h2 h3 e1⟩

/-- 4x4 coarse octants on 2 ranks: blocks of two by two have 4 leaves, the share of a rank is 8; load balancing does not
split a block. -/
example : ∃ s s' : Ranks 2 2, start 3 ⟨2, fun _ => 4, fun _ => true⟩ = some s ∧
    Small 2 s.mesh 1 ∧ balance 3 2 ⟨2, fun _ => 4, fun _ => true⟩ 1 s = some s' ∧
    Whole ⟨2, fun _ => 4, fun _ => true⟩ s' := by
  have hG : (⟨2, fun _ => 4, fun _ => true⟩ : Grid 2).WF := ⟨⟨by decide⟩, by decide⟩
  obtain ⟨s, e, hs, m⟩ := start_spec (P := 2) (e := 3) (L := 2) hG (by decide) (by decide) (by decide) (by decide)
    (by decide)
  have hsmall : Small 2 s.mesh 1 := by
    intro c hc F hF hx
    have hsub : F ⊆ (children c).toFinset := fun x hxF => by
      have h1 : x.level = 2 := ((m x).1 (hF hxF)).1
      refine List.mem_toFinset.2 ((mem_children c x).2 ⟨by omega, fun i => ?_⟩)
      have h2 := (hx x hxF).2 i
      rwa [show x.level - c.level = 1 by omega, pow_one] at h2
    have h1 : F.card ≤ 4 := (Finset.card_le_card hsub).trans ((List.toFinset_card_le _).trans (by simp [children]))
    have h2 : 8 ≤ s.mesh.card := by
      have hin : ((Finset.range 4 ×ˢ Finset.range 2).image fun p : ℕ × ℕ => (⟨2, ![p.1, p.2]⟩ : Oct 2)) ⊆ s.mesh := by
        intro o ho
        obtain ⟨p, hp, rfl⟩ := Finset.mem_image.1 ho
        rw [Finset.mem_product, Finset.mem_range, Finset.mem_range] at hp
        refine (m _).2 ⟨rfl, fun i => ?_⟩
        fin_cases i
        · exact hp.1
        · exact lt_of_lt_of_le hp.2 (by decide)
      exact le_trans (by decide) (Finset.card_le_card hin)
    omega
  obtain ⟨h1, h2⟩ := C81_whole_never_fails (P := 2) (e := 3) (L := 2) hG (by decide) (by decide) (by decide) (by decide)
    (by decide) (by decide)
  obtain ⟨s', h3, h4⟩ := (h2 [] s (Reach.start e) (h1 s e)).2 1 (by decide) (by decide) hsmall
  exact ⟨s, s', e, hsmall, h3, h4⟩

end Verif.Run
