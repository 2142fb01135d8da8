import Verif.Adapt.Check
import Verif.Octree.Order

/-!
# Applying corrected markers: the new mesh is a balanced tiling in Morton order
-/

namespace Verif.Adapt

open Verif.Octree Verif.Morton

variable {d : ℕ}

/-! ### Children -/

theorem digit_bits {d : ℕ} (p : Fin d → ℕ) (j : ℕ) (hj : j < 2 ^ d) :
    digit (fun i => p i * 2 + j / 2 ^ (i : ℕ) % 2) = j := by
  induction d generalizing j with
  | zero => simp at hj; simp [digit, hj]
  | succ d ih =>
    have h1 := ih (fun i => p i.castSucc) (j % 2 ^ d) (Nat.mod_lt _ (by positivity))
    unfold digit at *
    rw [Fin.sum_univ_castSucc]
    simp only [Fin.val_castSucc, Fin.val_last, Nat.mul_add_mod_self_right, Nat.mod_mod] at *
    have h2 : ∀ i : Fin d, j % 2 ^ d / 2 ^ (i : ℕ) % 2 = j / 2 ^ (i : ℕ) % 2 := by
      intro i
      have hi := i.2
      obtain ⟨k, hk⟩ := Nat.exists_eq_add_of_lt hi
      have e : 2 ^ d = 2 ^ (i : ℕ) * 2 ^ (k + 1) := by
        rw [← pow_add]; congr 1
      rw [e, Nat.mod_mul_right_div_self, pow_succ', Nat.mod_mul_right_mod]
    simp only [h2] at h1
    rw [h1]
    have h3 : j / 2 ^ d < 2 := by
      rw [Nat.div_lt_iff_lt_mul (by positivity)]; rw [pow_succ] at hj; omega
    rw [Nat.mod_eq_of_lt h3, Nat.mul_comm]
    exact Nat.mod_add_div j (2 ^ d)

theorem digit_div {d : ℕ} (p : Fin d → ℕ) (i : Fin d) : digit p / 2 ^ (i : ℕ) % 2 = p i % 2 := by
  have h := digit_bits (fun _ => 0) (digit p) (digit_lt p)
  have := digit_inj h i
  simpa using this

theorem mem_children (a c : Oct d) :
    c ∈ children a ↔ c.level = a.level + 1 ∧ ∀ i, c.pos i / 2 = a.pos i := by
  unfold children
  simp only [List.mem_map, List.mem_range]
  constructor
  · rintro ⟨j, -, rfl⟩
    exact ⟨rfl, fun i => by simp only; omega⟩
  · rintro ⟨h1, h2⟩
    refine ⟨digit c.pos, digit_lt _, Oct.ext' h1.symm (fun i => ?_)⟩
    simp only [digit_div]
    have := h2 i
    omega

theorem child_anc {a c : Oct d} (h : c.level = a.level + 1) (hp : ∀ i, c.pos i / 2 = a.pos i) :
    Anc a c := by
  refine ⟨by omega, fun i => ?_⟩
  rw [show c.level - a.level = 1 by omega, pow_one]; exact hp i

theorem child_valid {G : Grid d} {a c : Oct d} (ha : Valid G a) (h : c.level = a.level + 1)
    (hp : ∀ i, c.pos i / 2 = a.pos i) : Valid G c := by
  refine ⟨by have := ha.1; omega, fun i => ?_⟩
  rw [h, count_add G i 1 ha.1]
  have h1 := ha.2 i
  have h2 := hp i
  omega

/-! ### Membership in the new mesh -/

/-- The first sibling of `a`. -/
def firstSib (a : Oct d) : Oct d := ⟨a.level, fun i => a.pos i / 2 * 2⟩

theorem firstSib_sibling (a : Oct d) : Sibling (firstSib a) a :=
  ⟨rfl, fun i => by simp only [firstSib]; omega⟩

theorem parent_firstSib (a : Oct d) : parent (firstSib a) = parent a :=
  Oct.ext' rfl (fun i => by simp only [parent, firstSib]; omega)

/-- `o` replaces the old leaf `a` (which lies in it, or contains it). -/
def Replaces (mk : Oct d → ℤ) (o a : Oct d) : Prop :=
  (mk a = 1 ∧ o.level = a.level + 1 ∧ ∀ i, o.pos i / 2 = a.pos i) ∨ (mk a = 0 ∧ o = a) ∨
    (mk a = -1 ∧ o = parent a)

theorem mem_newMesh {G : Grid d} {M : Finset (Oct d)} {mk : Oct d → ℤ}
    (hA : Admissible G M mk) (o : Oct d) :
    o ∈ newMesh mk M ↔ ∃ a ∈ M, Replaces mk o a := by
  unfold newMesh
  simp only [Finset.mem_biUnion, List.mem_toFinset]
  constructor
  · rintro ⟨a, ha, h⟩
    refine ⟨a, ha, ?_⟩
    unfold written at h
    split at h
    · rename_i h1
      exact Or.inl ⟨h1, (mem_children a o).1 h⟩
    · split at h
      · rename_i h1
        exact Or.inr (Or.inl ⟨h1, by simpa using h⟩)
      · split at h
        · rename_i h1
          split at h
          · exact Or.inr (Or.inr ⟨h1, by simpa using h⟩)
          · simp at h
        · simp at h
  · rintro ⟨a, ha, ⟨h1, h2⟩ | ⟨h1, rfl⟩ | ⟨h1, rfl⟩⟩
    · refine ⟨a, ha, ?_⟩
      unfold written
      rw [if_pos h1]
      exact (mem_children a o).2 h2
    · refine ⟨o, ha, ?_⟩
      unfold written
      rw [if_neg (by omega), if_pos h1]; simp
    · obtain ⟨h2, h3⟩ := hA.sib a ha h1 _ (firstSib_sibling a)
      refine ⟨firstSib a, h2, ?_⟩
      unfold written
      rw [if_neg (by omega), if_neg (by omega), if_pos h3, if_pos (fun i => by simp [firstSib]),
        parent_firstSib]
      simp

/-- Level of a new leaf. -/
theorem Replaces.level {mk : Oct d → ℤ} {o a : Oct d} (h : Replaces mk o a)
    (h1 : 0 ≤ (a.level : ℤ) + mk a) : (o.level : ℤ) = a.level + mk a := by
  rcases h with ⟨h2, h3, -⟩ | ⟨h2, rfl⟩ | ⟨h2, rfl⟩
  · omega
  · omega
  · simp only [parent]; omega

theorem Replaces.valid {G : Grid d} {M : Finset (Oct d)} (hM : Tiling G M) {mk : Oct d → ℤ}
    (hc : ∀ a ∈ M, mk a = -1 → G.lmin < a.level) {o a : Oct d} (ha : a ∈ M)
    (h : Replaces mk o a) : Valid G o := by
  rcases h with ⟨h2, h3, h4⟩ | ⟨h2, rfl⟩ | ⟨h2, rfl⟩
  · exact child_valid (hM.valid a ha) h3 h4
  · exact hM.valid o ha
  · exact parent_valid (hM.valid a ha) (hc a ha h2)

/-! ### Tiling -/

/-- An octant between `parent a` and below: the ancestor at the level of `a` is a sibling of `a`. -/
theorem up_sibling {a v : Oct d} (h1 : 1 ≤ a.level) (hv : a.level ≤ v.level)
    (h : Anc (parent a) v) : Sibling (up v a.level) a := by
  refine ⟨rfl, fun i => ?_⟩
  have h2 := h.2 i
  simp only [parent] at h2
  simp only [up]
  rw [Nat.div_div_eq_div_mul, ← pow_succ, ← h2]
  congr 2
  omega

theorem newMesh_tiling {G : Grid d} (hG : G.WF) {M : Finset (Oct d)} (hM : Tiling G M)
    {mk : Oct d → ℤ} (hA : Admissible G M mk) (hval : ∀ a ∈ M, -1 ≤ mk a ∧ mk a ≤ 1)
    (hc : ∀ a ∈ M, mk a = -1 → G.lmin < a.level) : Tiling G (newMesh mk M) := by
  let L := M.sup Oct.level + 1 + G.lmin
  have hLM : ∀ a ∈ M, a.level + 1 ≤ L := fun a ha => by
    have : a.level ≤ M.sup Oct.level := Finset.le_sup ha
    omega
  have hlev : ∀ o ∈ newMesh mk M, o.level ≤ L := by
    intro o ho
    obtain ⟨a, ha, h⟩ := (mem_newMesh hA o).1 ho
    have := hLM a ha
    rcases h with ⟨h2, h3, h4⟩ | ⟨h2, rfl⟩ | ⟨h2, rfl⟩
    · omega
    · omega
    · simp only [parent]; omega
  apply tiling_of_anc hG _ L (by omega) hlev
  · intro v hv hvL
    obtain ⟨l, hl, hlv⟩ := hM.exists_anc hG hv (fun b hb => by have := hLM b hb; omega)
    have hlL := hLM l hl
    -- every new leaf above `v` replaces `l`
    have key : ∀ x, x ∈ newMesh mk M → Anc x v → Replaces mk x l := by
      intro x hx hxv
      obtain ⟨a, ha, h⟩ := (mem_newMesh hA x).1 hx
      have haL := hLM a ha
      have leafEq : ∀ b, b ∈ M → Anc b v → b = l := by
        intro b hb hbv
        rcases le_total b.level l.level with h5 | h5
        · exact hM.eq_of_anc hG hb hl (hbv.linear hlv h5)
        · exact (hM.eq_of_anc hG hl hb (hlv.linear hbv h5)).symm
      rcases h with ⟨h2, h3, h4⟩ | ⟨h2, h3⟩ | ⟨h2, h3⟩
      · have : a = l := leafEq a ha ((child_anc h3 h4).trans hxv)
        rw [← this]
        exact Or.inl ⟨h2, h3, h4⟩
      · have : a = l := leafEq a ha (h3 ▸ hxv)
        rw [← this]
        exact Or.inr (Or.inl ⟨h2, h3⟩)
      · have hla := hc a ha h2
        rw [h3] at hxv
        have hs := up_sibling (by omega) (by omega) hxv
        obtain ⟨h5, h6⟩ := hA.sib a ha h2 _ hs
        have h7 := leafEq _ h5 (up_anc v (by omega))
        rw [h7] at h6 hs
        refine Or.inr (Or.inr ⟨h6, ?_⟩)
        rw [h3]
        refine Oct.ext' ?_ (fun i => ?_)
        · simp only [parent]; rw [hs.1]
        · simp only [parent]; exact (hs.2 i).symm
    have huniq : ∀ x y, x ∈ newMesh mk M → Anc x v → y ∈ newMesh mk M → Anc y v → x = y := by
      intro x y hx hxv hy hyv
      have h1 := key x hx hxv
      have h2 := key y hy hyv
      have : x.level = y.level := by
        rcases h1 with ⟨a1, a2, -⟩ | ⟨a1, rfl⟩ | ⟨a1, rfl⟩ <;>
        rcases h2 with ⟨b1, b2, -⟩ | ⟨b1, rfl⟩ | ⟨b1, rfl⟩ <;>
        omega
      exact (hxv.linear hyv (by omega)).eq_of_level this
    have hex : ∃ x ∈ newMesh mk M, Anc x v := by
      obtain ⟨h1, h2⟩ := hval l hl
      have : mk l = 1 ∨ mk l = 0 ∨ mk l = -1 := by omega
      rcases this with h3 | h3 | h3
      · have h4 := up_anc v (l := l.level + 1) (by omega)
        refine ⟨up v (l.level + 1), (mem_newMesh hA _).2 ⟨l, hl, Or.inl ⟨h3, rfl, fun i => ?_⟩⟩, h4⟩
        have h5 := (hlv.linear h4 (by simp [up])).2 i
        rw [show (up v (l.level + 1)).level - l.level = 1 by simp [up], pow_one] at h5
        exact h5
      · exact ⟨l, (mem_newMesh hA _).2 ⟨l, hl, Or.inr (Or.inl ⟨h3, rfl⟩)⟩, hlv⟩
      · exact ⟨parent l, (mem_newMesh hA _).2 ⟨l, hl, Or.inr (Or.inr ⟨h3, rfl⟩)⟩,
          (parent_anc l (by have := hc l hl h3; omega)).trans hlv⟩
    obtain ⟨x, hx, hxv⟩ := hex
    exact ⟨x, ⟨hx, hxv⟩, fun y hy => huniq y x hy.1 hy.2 hx hxv⟩
  · intro o ho
    obtain ⟨a, ha, h⟩ := (mem_newMesh hA o).1 ho
    exact h.valid hM hc ha

/-! ### Balance -/

theorem Touch.mono_left {G : Grid d} (hG : G.WF) {a x y : Oct d} (h : Anc a x)
    (hl : G.lmin ≤ a.level) (ht : Touch G x y) : Touch G a y := by
  intro i
  obtain ⟨s, hs, h1, h2⟩ := ht i
  exact ⟨s, hs, le_trans (h.lo_le hG hl i) h1, le_trans h2 (h.hi_le hG hl i)⟩

/-- If the box of `x` meets `y`, so does the box of one of its children. -/
theorem Touch.exists_child {G : Grid d} {x y : Oct d} (hl : G.lmin ≤ x.level)
    (ht : Touch G x y) : ∃ c : Oct d, c.level = x.level + 1 ∧ (∀ i, c.pos i / 2 = x.pos i) ∧
      Touch G c y := by
  have key : ∀ i, ∃ p : ℕ, p / 2 = x.pos i ∧ ∃ s, Shift G i s ∧
      ((p : ℕ) : ℚ) / G.count i (x.level + 1) ≤ hi G y i + s ∧
      lo G y i + s ≤ ((p : ℕ) + 1 : ℚ) / G.count i (x.level + 1) := by
    intro i
    obtain ⟨s, hs, h1, h2⟩ := ht i
    rw [lo_scale x i 1 hl] at h1
    rw [hi_scale x i 1 hl] at h2
    by_cases hc : lo G y i + s ≤ ((x.pos i * 2 : ℕ) + 1 : ℚ) / G.count i (x.level + 1)
    · exact ⟨x.pos i * 2, by omega, s, hs, by simpa using h1, hc⟩
    · refine ⟨x.pos i * 2 + 1, by omega, s, hs, ?_, ?_⟩
      · push Not at hc
        have hlo : lo G y i ≤ hi G y i := by
          unfold lo hi
          gcongr
          linarith
        push_cast at hc ⊢
        linarith
      · refine le_trans h2 (le_of_eq ?_)
        push_cast
        ring
  choose p hp hq using key
  exact ⟨⟨x.level + 1, p⟩, rfl, hp, hq⟩

/-- If a new leaf touches something, one of the old leaves that it replaces touches it. -/
theorem Replaces.touch {G : Grid d} (hG : G.WF) {M : Finset (Oct d)} (hM : Tiling G M)
    {mk : Oct d → ℤ} (hA : Admissible G M mk) (hc : ∀ a ∈ M, mk a = -1 → G.lmin < a.level)
    {o a y : Oct d} (ha : a ∈ M) (h : Replaces mk o a) (ht : Touch G o y) :
    ∃ b ∈ M, Replaces mk o b ∧ Touch G b y := by
  have hva := hM.valid a ha
  rcases h with ⟨h2, h3, h4⟩ | ⟨h2, rfl⟩ | ⟨h2, rfl⟩
  · exact ⟨a, ha, Or.inl ⟨h2, h3, h4⟩, Touch.mono_left hG (child_anc h3 h4) hva.1 ht⟩
  · exact ⟨o, ha, Or.inr (Or.inl ⟨h2, rfl⟩), ht⟩
  · have hla := hc a ha h2
    obtain ⟨c, h5, h6, h7⟩ := Touch.exists_child (by simp only [parent]; omega) ht
    have hs : Sibling c a := ⟨by rw [h5]; simp only [parent]; omega, h6⟩
    obtain ⟨h8, h9⟩ := hA.sib a ha h2 c hs
    refine ⟨c, h8, Or.inr (Or.inr ⟨h9, ?_⟩), h7⟩
    refine Oct.ext' ?_ (fun i => ?_)
    · simp only [parent]; rw [hs.1]
    · simp only [parent]; exact (hs.2 i).symm

theorem newMesh_balanced {G : Grid d} (hG : G.WF) {M : Finset (Oct d)} (hM : Tiling G M)
    {mk : Oct d → ℤ} (hA : Admissible G M mk)
    (hc : ∀ a ∈ M, mk a = -1 → G.lmin < a.level) (h0 : ∀ a ∈ M, -1 ≤ mk a) :
    Balanced G (newMesh mk M) := by
  intro x hx y hy ht
  obtain ⟨a, ha, hxa⟩ := (mem_newMesh hA x).1 hx
  obtain ⟨b, hb, hyb⟩ := (mem_newMesh hA y).1 hy
  obtain ⟨a', ha', hxa', ht'⟩ := hxa.touch hG hM hA hc ha ht
  obtain ⟨b', hb', hyb', ht''⟩ := hyb.touch hG hM hA hc hb ht'.symm
  have h1 := hA.two b' hb' a' ha' ht''
  have lev : ∀ o c, c ∈ M → Replaces mk o c → (o.level : ℤ) = c.level + mk c := by
    intro o c hcM hr
    apply hr.level
    have := h0 c hcM
    by_cases hc1 : mk c = -1
    · have := hc c hcM hc1; omega
    · omega
  have h2 := lev x a' ha' hxa'
  have h3 := lev y b' hb' hyb'
  omega

/-! ### Storage order -/

theorem length_written (m : ℤ) (a : Oct d) : (written m a).length = nwrite m a := by
  unfold written nwrite
  split
  · simp [children]
  · split
    · rfl
    · split
      · split <;> rfl
      · rfl

theorem length_offsets (mk : Oct d → ℤ) (l : List (Oct d)) (acc : ℕ) :
    (offsets mk acc l).1.length = l.length := by
  induction l generalizing acc with
  | nil => rfl
  | cons a l ih => simp [offsets, ih]

/-- The writes of a rank: slot numbers from `acc` on, without gaps, in storage order. -/
theorem writes_aux (mk : Oct d → ℤ) (l : List (Oct d)) (acc : ℕ) :
    ((l.zip (offsets mk acc l).1).flatMap fun x =>
      (written (mk x.1) x.1).zipIdx.map fun y => (x.2 + y.2, y.1)) =
      ((newLeaves mk l).zipIdx acc).map (fun y => (y.2, y.1)) ∧
    (offsets mk acc l).2 = acc + (newLeaves mk l).length := by
  induction l generalizing acc with
  | nil => simp [offsets, newLeaves]
  | cons a l ih =>
    obtain ⟨h1, h2⟩ := ih (acc + nwrite (mk a) a)
    simp only [offsets, List.zip_cons_cons, List.flatMap_cons, newLeaves, List.zipIdx_append,
      List.map_append, List.length_append, length_written] at *
    refine ⟨?_, by rw [h2]; omega⟩
    rw [h1]
    congr 1
    rw [List.zipIdx_eq_map_add (i := acc)]
    simp [List.map_map, Function.comp_def]

theorem writes_eq (mk : Oct d → ℤ) (l : List (Oct d)) :
    writes mk l = (newLeaves mk l).zipIdx.map (fun y => (y.2, y.1)) :=
  (writes_aux mk l 0).1

theorem offsets_total (mk : Oct d → ℤ) (l : List (Oct d)) :
    (offsets mk 0 l).2 = (newLeaves mk l).length := by
  rw [(writes_aux mk l 0).2]; simp

/-- Whatever the order of the writes, slot `j` ends up with new leaf number `j`. -/
theorem storage_perm (mk : Oct d → ℤ) (l : List (Oct d)) (ws : List (ℕ × Oct d))
    (hp : ws.Perm (writes mk l)) (j : ℕ) : storage ws j = (newLeaves mk l)[j]? := by
  have hmem : ∀ k o, (k, o) ∈ ws ↔ (newLeaves mk l)[k]? = some o := by
    intro k o
    rw [hp.mem_iff, writes_eq, List.mem_map]
    constructor
    · rintro ⟨⟨x, i⟩, h1, h2⟩
      simp only [Prod.mk.injEq] at h2
      obtain ⟨rfl, rfl⟩ := h2
      exact List.mem_zipIdx_iff_getElem?.1 h1
    · intro h
      exact ⟨(o, k), List.mem_zipIdx_iff_getElem?.2 h, rfl⟩
  unfold storage
  cases hf : ws.reverse.find? (fun w => w.1 == j) with
  | none =>
    rw [List.find?_eq_none] at hf
    cases hj : (newLeaves mk l)[j]? with
    | none => rfl
    | some o =>
      have := hf (j, o) (List.mem_reverse.2 ((hmem j o).2 hj))
      simp at this
  | some w =>
    have h1 := List.find?_some hf
    have h2 := List.mem_of_find?_eq_some hf
    rw [List.mem_reverse] at h2
    have h3 := (hmem w.1 w.2).1 h2
    simp only [beq_iff_eq] at h1
    rw [h1] at h3
    rw [h3]; rfl

/-- The keys of what is written for `a` lie in the key interval of `a`. -/
theorem written_keys {e L : ℕ} (hde : d ≤ e) (m : ℤ) {a o : Oct d} (ho : o ∈ written m a)
    (hl : m = 1 → a.level + 1 ≤ L) (hL : a.level ≤ L) (hc : m = -1 → 1 ≤ a.level) :
    okey e L a ≤ okey e L o ∧ okey e L o < oend e L a := by
  unfold written at ho
  split at ho
  · rename_i h1
    obtain ⟨h2, h3⟩ := (mem_children a o).1 ho
    have hL1 := hl h1
    obtain ⟨h4, h5⟩ := (child_anc h2 h3).okey_le (L := L) hde (by omega)
    exact ⟨h4, lt_of_lt_of_le (okey_lt_oend _ _ _) h5⟩
  · split at ho
    · simp only [List.mem_singleton] at ho
      rw [ho]
      exact ⟨le_refl _, okey_lt_oend _ _ _⟩
    · split at ho
      · rename_i h1
        split at ho
        · rename_i h2
          simp only [List.mem_singleton] at ho
          rw [ho]
          have : okey e L (parent a) = okey e L a := by
            unfold okey parent
            congr 1
            funext i
            have h3 := h2 i
            have h4 := hc h1
            simp only
            rw [show L - (a.level - 1) = L - a.level + 1 by omega, pow_succ,
              Nat.mul_comm (2 ^ _) 2, ← Nat.mul_assoc]
            congr 1
            omega
          rw [this]
          exact ⟨le_refl _, okey_lt_oend _ _ _⟩
        · simp at ho
      · simp at ho

theorem children_sorted {e L : ℕ} {a : Oct d} (hl : a.level + 1 ≤ L) :
    (children a).Pairwise fun x y => okey e L x < okey e L y := by
  unfold children
  rw [List.pairwise_map]
  refine List.Pairwise.imp_of_mem ?_ List.pairwise_lt_range
  intro j k hj hk hjk
  rw [List.mem_range] at hj hk
  rw [okey_eq (by simpa using hl), okey_eq (by simpa using hl)]
  simp only [zkey]
  apply Nat.mul_lt_mul_of_pos_right _ (by positivity)
  rw [digit_bits _ _ hj, digit_bits _ _ hk]
  have : ∀ j : ℕ, (fun c : Fin d => (a.pos c * 2 + j / 2 ^ (c : ℕ) % 2) / 2) = a.pos := by
    intro j; funext c; omega
  rw [this, this]
  omega

theorem newLeaves_sorted {e L : ℕ} (hde : d ≤ e) (mk : Oct d → ℤ) (l : List (Oct d))
    (hl : ∀ a ∈ l, a.level ≤ L ∧ (mk a = 1 → a.level + 1 ≤ L) ∧ (mk a = -1 → 1 ≤ a.level))
    (hs : ZOrdered e L l) : (newLeaves mk l).Pairwise fun x y => okey e L x < okey e L y := by
  unfold newLeaves
  rw [List.pairwise_flatMap]
  constructor
  · intro a ha
    obtain ⟨h1, h2, h3⟩ := hl a ha
    unfold written
    split
    · exact children_sorted (h2 (by assumption))
    · split
      · simp
      · split
        · split <;> simp
        · simp
  · refine List.Pairwise.imp_of_mem ?_ hs
    intro a b ha hb hab x hx y hy
    obtain ⟨h1, h2, h3⟩ := hl a ha
    obtain ⟨h4, h5, h6⟩ := hl b hb
    have h7 := (written_keys hde (mk a) hx h2 h1 h3).2
    have h8 := (written_keys hde (mk b) hy h5 h4 h6).1
    omega

end Verif.Adapt
