import Verif.Adapt.Model
import Verif.Adapt.Spec
import Verif.Octree.Symm

/-!
# The single-octant marker check computes the least local correction
-/

namespace Verif.Adapt

open Verif.Octree

variable {d : ℕ}

theorem u32_eq {x : ℤ} (h0 : 0 ≤ x) (h1 : x < 2 ^ 32) : u32 x = x := by
  unfold u32; omega

theorem s32_u32 {x : ℤ} (h0 : -2 ^ 31 ≤ x) (h1 : x < 2 ^ 31) : s32 (u32 x) = x := by
  unfold s32 u32; omega

/-- A rank that has all leaves touching `a` finds the same neighbours as the whole mesh. -/
theorem findNeighbors_congr {G : Grid d} (hG : G.WF) {M Mr : Finset (Oct d)} (hM : Tiling G M)
    (hsub : ∀ b ∈ Mr, b ∈ M) {a : Oct d} (ha : a ∈ M)
    (hcomp : ∀ b ∈ M, Touch G a b → b ∈ Mr) (off : Fin d → SignType) :
    findNeighbors G Mr a off = findNeighbors G M a off := by
  have hva := hM.valid a ha
  unfold findNeighbors
  by_cases h0 : ∀ i, off i = 0
  · rw [if_pos h0, if_pos h0]
  rw [if_neg h0, if_neg h0]
  by_cases hbd : isBoundary G a off = true
  · rw [if_pos hbd, if_pos hbd]
  rw [if_neg hbd, if_neg hbd]
  have hin : ∀ i, InDom G a off i := (isBoundary_iff hG a off).1 (by simpa using hbd)
  have hvc := sameSize_valid hG hva off
  have hc : DirAdj G a off (sameSize G a off) :=
    (dirAdj_coarse hG hva hvc (le_refl _) off).2 ⟨hin, Anc.refl _⟩
  have e1 : (⟨a.level, neighborPos G a off⟩ : Oct d) ∈ Mr ↔
      (⟨a.level, neighborPos G a off⟩ : Oct d) ∈ M :=
    ⟨hsub _, fun h => hcomp _ h (hc.touch hG)⟩
  have e2 : (1 ≤ a.level ∧ (⟨a.level - 1, fun i => neighborPos G a off i >>> 1⟩ : Oct d) ∈ Mr) ↔
      (1 ≤ a.level ∧ (⟨a.level - 1, fun i => neighborPos G a off i >>> 1⟩ : Oct d) ∈ M) := by
    refine and_congr_right fun hl => ⟨hsub _, fun h => hcomp _ h ?_⟩
    refine (hc.of_anc hG ⟨Nat.sub_le _ _, fun i => ?_⟩ (hM.valid _ h).1).touch hG
    have : a.level - (a.level - 1) = 1 := by omega
    simp [sameSize, this, Nat.shiftRight_eq_div_pow]
  have e3 : (∀ b ∈ finerNeighbors a.level (neighborPos G a off) off, b ∈ Mr) ↔
      (∀ b ∈ finerNeighbors a.level (neighborPos G a off) off, b ∈ M) := by
    refine forall_congr' fun b => forall_congr' fun hb => ⟨hsub _, fun h => hcomp _ h ?_⟩
    obtain ⟨hl, hlay⟩ := (finer_mem_iff _ _ _ _).1 hb
    refine DirAdj.touch hG (off := off) ?_
    rw [dirAdj_fine hG hva (hM.valid b h) (by omega)]
    refine ⟨hin, fun i => ?_⟩
    rw [show b.level - a.level = 1 by omega]
    exact hlay i
  simp only [e1, e2, e3]

theorem mem_directions (off : Fin d → SignType) : off ∈ directions d ↔ ¬ ∀ i, off i = 0 := by
  unfold directions
  simp only [List.mem_filter, mem_loops, decide_eq_true_eq]
  constructor
  · exact fun h => h.2
  · intro h
    refine ⟨fun i => ?_, h⟩
    cases off i <;> decide

/-- What the neighbour loop computes: the least value above `m` and above the 2:1 bounds. -/
theorem foldl_checkNeighbor (mk : Oct d → ℤ) (a : Oct d) (ns : List (Oct d))
    (hns : ∀ n ∈ ns, 1 ≤ (n.level : ℤ) + mk n ∧ n.level < 2 ^ 30 ∧ mk n ≤ 1)
    (hal : a.level < 2 ^ 30) (m : ℤ) (hm0 : 1 ≤ (a.level : ℤ) + m) (hm1 : m ≤ 2 ^ 30) :
    let r := ns.foldl (checkNeighbor mk a) m
    m ≤ r ∧ r ≤ 2 ^ 30 ∧ (∀ n ∈ ns, (n.level : ℤ) + mk n ≤ a.level + r + 1) ∧
      ∀ x, m ≤ x → (∀ n ∈ ns, (n.level : ℤ) + mk n ≤ a.level + x + 1) → r ≤ x := by
  induction ns generalizing m with
  | nil => simp; omega
  | cons n ns ih =>
    simp only [List.foldl_cons]
    have hn := hns n (by simp)
    have hstep : checkNeighbor mk a m n = max m ((n.level : ℤ) - a.level + mk n - 1) := by
      unfold checkNeighbor
      rw [u32_eq (by omega) (by omega), u32_eq (by omega) (by omega)]
      split
      · rw [s32_u32 (by omega) (by omega)]; omega
      · omega
    rw [hstep]
    have ih' := ih (fun k hk => hns k (List.mem_cons_of_mem _ hk))
      (max m ((n.level : ℤ) - a.level + mk n - 1)) (by omega) (by omega)
    simp only at ih' ⊢
    obtain ⟨h1, h2, h3, h4⟩ := ih'
    refine ⟨by omega, h2, ?_, ?_⟩
    · intro k hk
      rcases List.mem_cons.1 hk with rfl | hk
      · omega
      · exact h3 k hk
    · intro x hx hb
      apply h4 x
      · have := hb n (by simp)
        omega
      · exact fun k hk => hb k (List.mem_cons_of_mem _ hk)

/-- The loop over directions. -/
theorem foldlM_checkDirection {G : Grid d} (hG : G.WF) {M : Finset (Oct d)} (hM : Tiling G M)
    (hB : Balanced G M) (mk : Oct d → ℤ) {a : Oct d} (ha : a ∈ M)
    (hmk : ∀ n ∈ M, 1 ≤ (n.level : ℤ) + mk n ∧ n.level < 2 ^ 30 ∧ mk n ≤ 1)
    (ds : List (Fin d → SignType)) (hds : ∀ off ∈ ds, ¬ ∀ i, off i = 0)
    (m : ℤ) (hm0 : 1 ≤ (a.level : ℤ) + m) (hm1 : m ≤ 2 ^ 30) :
    ∃ r, ds.foldlM (checkDirection G M mk a) m = some r ∧ m ≤ r ∧ r ≤ 2 ^ 30 ∧
      (∀ off ∈ ds, ∀ n ∈ M, DirAdj G a off n → (n.level : ℤ) + mk n ≤ a.level + r + 1) ∧
      ∀ x, m ≤ x →
        (∀ off ∈ ds, ∀ n ∈ M, DirAdj G a off n → (n.level : ℤ) + mk n ≤ a.level + x + 1) → r ≤ x := by
  induction ds generalizing m with
  | nil => exact ⟨m, rfl, le_refl _, hm1, by simp, fun x hx _ => hx⟩
  | cons off ds ih =>
    obtain ⟨ns, e, -, hmem⟩ := findNeighbors_spec hG hM hB ha off (hds off (by simp))
    have hf := foldl_checkNeighbor mk a ns (fun n hn => hmk n ((hmem n).1 hn).1)
      (hmk a ha).2.1 m hm0 hm1
    simp only at hf
    obtain ⟨h1, h2, h3, h4⟩ := hf
    obtain ⟨r, hr, k1, k2, k3, k4⟩ := ih (fun o ho => hds o (List.mem_cons_of_mem _ ho))
      (ns.foldl (checkNeighbor mk a) m) (by omega) h2
    refine ⟨r, ?_, by omega, k2, ?_, ?_⟩
    · rw [List.foldlM_cons]
      unfold checkDirection at hr ⊢
      rw [e]
      exact hr
    · intro o ho n hn hadj
      rcases List.mem_cons.1 ho with rfl | ho
      · have := h3 n ((hmem n).2 ⟨hn, hadj⟩)
        omega
      · exact k3 o ho n hn hadj
    · intro x hx hb
      apply k4 x
      · apply h4 x hx
        intro n hn
        obtain ⟨hnM, hadj⟩ := (hmem n).1 hn
        exact hb off (by simp) n hnM hadj
      · exact fun o ho n hn hadj => hb o (List.mem_cons_of_mem _ ho) n hn hadj

/-! ### Siblings -/

/-- In a tiling, the parent of a leaf above the coarse level is valid. -/
theorem parent_anc (a : Oct d) (h : 1 ≤ a.level) : Anc (parent a) a := by
  refine ⟨Nat.sub_le _ _, fun i => ?_⟩
  have : a.level - (a.level - 1) = 1 := by omega
  simp [parent, this]

theorem parent_valid {G : Grid d} {a : Oct d} (ha : Valid G a) (h : G.lmin < a.level) :
    Valid G (parent a) :=
  (parent_anc a (by omega)).valid ha (by simp only [parent]; omega)

theorem count_even {G : Grid d} {l : ℕ} (h : G.lmin < l) (i : Fin d) :
    G.count i l = G.count i (l - 1) * 2 := by
  have := count_add G i 1 (n := l - 1) (by omega)
  rw [show l - 1 + 1 = l by omega] at this
  simpa using this

theorem Sibling.symm {s a : Oct d} (h : Sibling s a) : Sibling a s :=
  ⟨h.1.symm, fun i => (h.2 i).symm⟩

theorem Sibling.anc_parent {s a : Oct d} (h : Sibling s a) (hl : 1 ≤ a.level) :
    Anc (parent a) s := by
  have h1 := h.1
  have e : parent a = parent s := by
    refine Oct.ext' (by simp only [parent]; rw [h1]) (fun i => ?_)
    simp only [parent]
    exact (h.2 i).symm
  rw [e]
  exact parent_anc s (by omega)

theorem Sibling.valid {G : Grid d} {s a : Oct d} (h : Sibling s a) (ha : Valid G a)
    (hl : G.lmin < a.level) : Valid G s := by
  refine ⟨by rw [h.1]; omega, fun i => ?_⟩
  have h1 := ha.2 i
  have h2 := h.2 i
  rw [h.1]
  rw [count_even hl] at h1 ⊢
  omega

/-- The offsets of the sibling loop lead to the siblings other than `a`. -/
theorem mem_siblingOffsets {G : Grid d} {a : Oct d} (ha : Valid G a) (hl : G.lmin < a.level)
    (off : Fin d → SignType) (hoff : off ∈ siblingOffsets a.pos) :
    (¬ ∀ i, off i = 0) ∧ (∀ i, InDom G a off i) ∧ Sibling (sameSize G a off) a ∧
      sameSize G a off ≠ a := by
  unfold siblingOffsets at hoff
  simp only [List.mem_map, List.mem_filter, mem_loops, decide_eq_true_eq] at hoff
  obtain ⟨x, ⟨hx, hx0⟩, rfl⟩ := hoff
  have hne : ¬ ∀ i, (if x i = 0 then (0 : SignType) else if a.pos i % 2 = 0 then 1 else -1) = 0 := by
    intro h
    apply hx0
    intro i
    have := h i
    by_contra hc
    rw [if_neg hc] at this
    split at this <;> revert this <;> decide
  have key : ∀ i, InDom G a (fun i => if x i = 0 then (0 : SignType)
      else if a.pos i % 2 = 0 then 1 else -1) i ∧
      neighborPos G a (fun i => if x i = 0 then (0 : SignType)
        else if a.pos i % 2 = 0 then 1 else -1) i =
        (if x i = 0 then a.pos i else if a.pos i % 2 = 0 then a.pos i + 1 else a.pos i - 1) := by
    intro i
    have hp := ha.2 i
    have hev := count_even hl i
    obtain ⟨c0, c1, c2, c3, c4⟩ := neighborPos_cases ha (fun i => if x i = 0 then (0 : SignType)
      else if a.pos i % 2 = 0 then 1 else -1) i
    unfold InDom
    simp only at c0 c1 c2 c3 c4 ⊢
    by_cases h0 : x i = 0
    · simp only [if_pos h0] at c0 ⊢
      refine ⟨Or.inr ⟨by simp, by simpa using hp⟩, c0 trivial⟩
    · simp only [if_neg h0] at c1 c3 ⊢
      by_cases h1 : a.pos i % 2 = 0
      · simp only [if_pos h1] at c1 ⊢
        have hlt : a.pos i + 1 < G.count i a.level := by omega
        refine ⟨Or.inr ⟨by simp; omega, by simp; omega⟩, c1 trivial hlt⟩
      · simp only [if_neg h1] at c3 ⊢
        refine ⟨Or.inr ⟨by simp; omega, by simp; omega⟩, c3 trivial (by omega)⟩
  refine ⟨hne, fun i => (key i).1, ⟨rfl, fun i => ?_⟩, ?_⟩
  · simp only [sameSize, (key i).2]
    split
    · rfl
    · split <;> omega
  · intro h
    apply hx0
    intro i
    have h1 : (sameSize G a (fun i => if x i = 0 then (0 : SignType)
        else if a.pos i % 2 = 0 then 1 else -1)).pos i = a.pos i := by rw [h]
    simp only [sameSize, (key i).2] at h1
    by_contra hc
    rw [if_neg hc] at h1
    split at h1 <;> omega

theorem exists_siblingOffset {G : Grid d} {a s : Oct d} (ha : Valid G a) (hl : G.lmin < a.level)
    (hs : Sibling s a) (hne : s ≠ a) : ∃ off ∈ siblingOffsets a.pos, sameSize G a off = s := by
  let x : Fin d → ℕ := fun i => if s.pos i = a.pos i then 0 else 1
  have hx0 : ¬ ∀ i, x i = 0 := by
    intro h
    apply hne
    refine Oct.ext' hs.1 (fun i => ?_)
    have := h i
    simp only [x] at this
    by_contra hc
    rw [if_neg hc] at this
    omega
  refine ⟨fun i => if x i = 0 then 0 else if a.pos i % 2 = 0 then 1 else -1, ?_, ?_⟩
  · unfold siblingOffsets
    simp only [List.mem_map, List.mem_filter, mem_loops, decide_eq_true_eq]
    refine ⟨x, ⟨fun i => ?_, hx0⟩, rfl⟩
    simp only [x]; split <;> simp
  · refine Oct.ext' hs.1.symm (fun i => ?_)
    have hp := ha.2 i
    have hev := count_even hl i
    have hsi := hs.2 i
    obtain ⟨c0, c1, c2, c3, c4⟩ := neighborPos_cases ha (fun i => if x i = 0 then (0 : SignType)
      else if a.pos i % 2 = 0 then 1 else -1) i
    simp only [sameSize]
    by_cases h0 : s.pos i = a.pos i
    · have hx : x i = 0 := by simp [x, h0]
      simp only [if_pos hx] at c0
      rw [c0 trivial, h0]
    · have hx : ¬ x i = 0 := by simp [x, h0]
      simp only [if_neg hx] at c1 c3
      by_cases h1 : a.pos i % 2 = 0
      · simp only [if_pos h1] at c1
        rw [c1 trivial (by omega)]
        omega
      · simp only [if_neg h1] at c3
        rw [c3 trivial (by omega)]
        omega

/-- One iteration of the sibling check: coarsening survives iff the sibling is a leaf that is
coarsened too. -/
theorem checkSibling_spec {G : Grid d} (hG : G.WF) {M : Finset (Oct d)} (hM : Tiling G M)
    (hB : Balanced G M) (mk : Oct d → ℤ) (hr : Requested G M mk) {a : Oct d} (ha : a ∈ M)
    (hl : G.lmin < a.level) (hl2 : 2 ≤ a.level)
    (off : Fin d → SignType) (hoff : off ∈ siblingOffsets a.pos) (m : ℤ) (hm : m = -1 ∨ m = 0) :
    ∃ r, checkSibling G M mk a m off = some r ∧
      ((sameSize G a off ∈ M ∧ mk (sameSize G a off) = -1 ∧ r = m) ∨
        (¬ (sameSize G a off ∈ M ∧ mk (sameSize G a off) = -1) ∧ r = 0)) := by
  have hva := hM.valid a ha
  obtain ⟨h0, hin, hsib, hne⟩ := mem_siblingOffsets hva hl off hoff
  have hbd : ¬ isBoundary G a off = true := by
    rw [Bool.not_eq_true, isBoundary_iff hG]; exact hin
  obtain ⟨ns, e, -, hmem⟩ := findNeighbors_spec hG hM hB ha off h0
  have hal := hr.bound a ha
  unfold checkSibling
  by_cases h1 : sameSize G a off ∈ M
  · have e2 : findNeighbors G M a off = some [sameSize G a off] := by
      have h1' : (⟨a.level, neighborPos G a off⟩ : Oct d) ∈ M := h1
      simp only [findNeighbors, if_neg h0, if_neg hbd, if_pos h1']
      rfl
    rw [e2]
    simp only [Option.bind_some, List.head?_cons, Option.map_some]
    have hlev : (sameSize G a off).level = a.level := rfl
    rw [hlev]
    have hlo := hr.lower _ h1
    have hup := hr.upper _ h1
    rw [u32_eq (by omega) (by omega), u32_eq (by omega) (by omega)]
    refine ⟨_, rfl, ?_⟩
    by_cases h2 : mk (sameSize G a off) = -1
    · left
      refine ⟨h1, h2, ?_⟩
      rw [if_neg (by omega)]
    · right
      refine ⟨fun h => h2 h.2, ?_⟩
      split
      · rfl
      · omega
  · -- the sibling is refined: its first child next to `a` blocks coarsening
    have hpar : ¬ (1 ≤ a.level ∧ (⟨a.level - 1, fun i => neighborPos G a off i >>> 1⟩ : Oct d) ∈ M) := by
      rintro ⟨-, hp⟩
      have hanc : Anc (⟨a.level - 1, fun i => neighborPos G a off i >>> 1⟩ : Oct d) a := by
        refine ⟨Nat.sub_le _ _, fun i => ?_⟩
        have : a.level - (a.level - 1) = 1 := by omega
        have hs2 := hsib.2 i
        simp only [sameSize] at hs2
        simp [this, Nat.shiftRight_eq_div_pow, hs2]
      have := hM.eq_of_anc hG hp ha hanc
      have := congrArg Oct.level this
      simp only at this
      omega
    have h1' : ¬ (⟨a.level, neighborPos G a off⟩ : Oct d) ∈ M := h1
    have e2 := e
    simp only [findNeighbors, if_neg h0, if_neg hbd, if_neg h1', if_neg hpar] at e2
    split at e2
    · simp only [Option.some.injEq] at e2
      rename_i hall
      -- non-empty list
      have hne2 : ns ≠ [] := by
        intro hnil
        have hz : (finerNeighbors a.level (neighborPos G a off) off).length = 0 := by
          rw [e2, hnil]; rfl
        unfold finerNeighbors at hz
        rw [List.length_map, length_loops, Finset.prod_eq_zero_iff] at hz
        obtain ⟨i, -, hi⟩ := hz
        split at hi <;> simp at hi
      obtain ⟨s, ns', hs⟩ := List.exists_cons_of_ne_nil hne2
      have hsmem : s ∈ finerNeighbors a.level (neighborPos G a off) off := by
        rw [e2, hs]; simp
      have hsM := hall s hsmem
      have hsl := ((finer_mem_iff _ _ _ _).1 hsmem).1
      rw [e, hs]
      simp only [Option.bind_some, List.head?_cons, Option.map_some]
      have hlo := hr.lower s hsM
      have hup := hr.upper s hsM
      rw [hsl]
      push_cast
      rw [u32_eq (by omega) (by omega), u32_eq (by omega) (by omega)]
      refine ⟨_, rfl, Or.inr ⟨fun h => h1 h.1, ?_⟩⟩
      split
      · rfl
      · omega
    · exact absurd e2 (by simp)

theorem foldlM_checkSibling {G : Grid d} (hG : G.WF) {M : Finset (Oct d)} (hM : Tiling G M)
    (hB : Balanced G M) (mk : Oct d → ℤ) (hr : Requested G M mk) {a : Oct d} (ha : a ∈ M)
    (hl : G.lmin < a.level) (hl2 : 2 ≤ a.level)
    (os : List (Fin d → SignType)) (hos : ∀ off ∈ os, off ∈ siblingOffsets a.pos)
    (m : ℤ) (hm : m = -1 ∨ m = 0) :
    ∃ r, os.foldlM (checkSibling G M mk a) m = some r ∧
      (((∀ off ∈ os, sameSize G a off ∈ M ∧ mk (sameSize G a off) = -1) ∧ r = m) ∨
        (¬ (∀ off ∈ os, sameSize G a off ∈ M ∧ mk (sameSize G a off) = -1) ∧ r = 0)) := by
  induction os generalizing m with
  | nil => exact ⟨m, rfl, Or.inl ⟨by simp, rfl⟩⟩
  | cons off os ih =>
    obtain ⟨r1, e1, h1⟩ := checkSibling_spec hG hM hB mk hr ha hl hl2 off (hos off (by simp)) m hm
    have hr1 : r1 = -1 ∨ r1 = 0 := by
      rcases h1 with ⟨-, -, h⟩ | ⟨-, h⟩
      · rw [h]; exact hm
      · exact Or.inr h
    obtain ⟨r, e, h⟩ := ih (fun o ho => hos o (List.mem_cons_of_mem _ ho)) r1 hr1
    refine ⟨r, ?_, ?_⟩
    · rw [List.foldlM_cons, e1]; exact e
    · simp only [List.forall_mem_cons]
      rcases h1 with ⟨h2, h3, h4⟩ | ⟨h2, h4⟩
      · rcases h with ⟨h5, h6⟩ | ⟨h5, h6⟩
        · exact Or.inl ⟨⟨⟨h2, h3⟩, h5⟩, by rw [h6, h4]⟩
        · exact Or.inr ⟨fun hc => h5 hc.2, h6⟩
      · refine Or.inr ⟨fun hc => h2 hc.1, ?_⟩
        rcases h with ⟨-, h6⟩ | ⟨-, h6⟩
        · rw [h6, h4]
        · exact h6

/-- All siblings of `a` are leaves marked for coarsening. -/
def AllSib (M : Finset (Oct d)) (mk : Oct d → ℤ) (a : Oct d) : Prop :=
  ∀ s, Sibling s a → s ∈ M ∧ mk s = -1

/-- The local constraints that the new marker `x` of `a` has to satisfy. -/
def LocalOK (G : Grid d) (M : Finset (Oct d)) (mk : Oct d → ℤ) (a : Oct d) (x : ℤ) : Prop :=
  mk a ≤ x ∧ (mk a = -1 → ¬ AllSib M mk a → 0 ≤ x) ∧
    ∀ b ∈ M, Touch G a b → (b.level : ℤ) + mk b ≤ a.level + x + 1

/-- `check_21_cell` returns the least marker that satisfies the local constraints. -/
theorem checkOct_spec {G : Grid d} (hG : G.WF) {M : Finset (Oct d)} (hM : Tiling G M)
    (hB : Balanced G M) (mk : Oct d → ℤ) (hr : Requested G M mk) {a : Oct d} (ha : a ∈ M) :
    ∃ r, checkOct G M mk a = some r ∧ LocalOK G M mk a r ∧ ∀ x, LocalOK G M mk a x → r ≤ x := by
  have hva := hM.valid a ha
  have hlo := hr.lower a ha
  have hup := hr.upper a ha
  have hta := hr.target a ha
  -- first loop
  have first : ∃ m, (if mk a = -1 then (siblingOffsets a.pos).foldlM (checkSibling G M mk a) (mk a)
      else some (mk a)) = some m ∧ mk a ≤ m ∧ m ≤ 1 ∧
      (mk a = -1 → ¬ AllSib M mk a → 0 ≤ m) ∧
      (∀ x, mk a ≤ x → (mk a = -1 → ¬ AllSib M mk a → 0 ≤ x) → m ≤ x) := by
    by_cases h1 : mk a = -1
    · rw [if_pos h1]
      have hl := hr.coarsest a ha h1
      obtain ⟨m, e, h⟩ := foldlM_checkSibling hG hM hB mk hr ha hl (by omega)
        (siblingOffsets a.pos) (fun _ h => h) (mk a) (Or.inl h1)
      have hiff : (∀ off ∈ siblingOffsets a.pos, sameSize G a off ∈ M ∧ mk (sameSize G a off) = -1) ↔
          AllSib M mk a := by
        constructor
        · intro hall s hs
          by_cases hne : s = a
          · rw [hne]; exact ⟨ha, h1⟩
          · obtain ⟨off, hoff, hoff2⟩ := exists_siblingOffset hva hl hs hne
            rw [← hoff2]; exact hall off hoff
        · intro hall off hoff
          exact hall _ (mem_siblingOffsets hva hl off hoff).2.2.1
      rw [hiff] at h
      refine ⟨m, e, ?_⟩
      rcases h with ⟨h2, h3⟩ | ⟨h2, h3⟩
      · exact ⟨by omega, by omega, fun _ hc => absurd h2 hc, fun x hx _ => by omega⟩
      · exact ⟨by omega, by omega, fun _ _ => by omega, fun x _ hx => by
          have := hx h1 h2
          omega⟩
    · rw [if_neg h1]
      exact ⟨mk a, rfl, le_refl _, hup, fun h => absurd h h1, fun x hx _ => hx⟩
  obtain ⟨m, e, hm1, hm2, hm3, hm4⟩ := first
  obtain ⟨r, er, k1, k2, k3, k4⟩ := foldlM_checkDirection hG hM hB mk ha
    (fun n hn => ⟨hr.target n hn, hr.bound n hn, hr.upper n hn⟩)
    (directions d) (fun off hoff => (mem_directions off).1 hoff) m (by omega) (by omega)
  refine ⟨r, ?_, ⟨by omega, fun h1 h2 => le_trans (hm3 h1 h2) k1, ?_⟩, ?_⟩
  · unfold checkOct
    by_cases h1 : mk a = -1
    · rw [if_pos h1] at e
      simp only [if_pos h1, e]
      exact er
    · rw [if_neg h1] at e
      simp only [if_neg h1, e]
      exact er
  · intro b hb ht
    by_cases hab : a = b
    · rw [← hab]; omega
    · obtain ⟨off, h0, hadj⟩ := hM.exists_dir hG ha hb hab ht
      exact k3 off ((mem_directions off).2 h0) b hb hadj
  · rintro x ⟨hx1, hx2, hx3⟩
    apply k4 x (hm4 x hx1 hx2)
    intro off _ n hn hadj
    exact hx3 n hn (hadj.touch hG)

end Verif.Adapt
