import Verif.Adapt.Props
import Verif.Cells.Position
import Verif.Io.Ranges

/-!
# C38: restart rebuilds the mesh and gives every octant its data

Model of `core/src/init/InitialConditions_restart.cpp` L218-301 (mesh and fields) on top of the models
of `adapt` (C09-C15), `getiOctFromPos` (C04) and of the datasets (C36).
-/

namespace Verif.Restart

open Verif.Octree Verif.Adapt Verif.Cells Verif.Io

variable {d P : ℕ}

/-! ### Model -/

/-- The mesh at the start: all octants of level `lmin` (`AMRmesh_hashmap_new` constructor, see C08). -/
def coarseMesh (G : Grid d) : Finset (Oct d) :=
  (Fintype.piFinset fun i => Finset.range (G.coarse i)).image fun p => ⟨G.lmin, p⟩

/-- L232-233: the tree that is read is not periodic. -/
def inputGrid (G : Grid d) : Grid d := { G with periodic := fun _ => false }

/-- L249-254: centre of an octant plus a hundredth of its size. -/
def queryPos (G : Grid d) (o : Oct d) (k : Fin d) : ℚ := getCenter G o k + getSize G o k * (1 / 100)

/-- L256-259, L269-270: marker of an octant: 1 if the input octant at its position is finer than the
current level of the loop. `none` if no octant is found. -/
def restartMark (G : Grid d) (N : Finset (Oct d)) (lmax level : ℕ) (o : Oct d) : Option ℤ :=
  (getiOctFromPos (inputGrid G) N G.lmin lmax (queryPos G o)).map fun b =>
    if level < b.level then 1 else 0

/-- L238-275 with any markers: mark, `adapt`. The loops of `adapt` get enough fuel (C09). -/
def markStep (G : Grid d) (mark : Oct d → Option ℤ) (D : Dist d P) (M : Finset (Oct d)) : Option (Finset (Oct d)) :=
  if ∀ o ∈ M, (mark o).isSome = true then
    (outerLoop G D M (2 * M.card + 1) (2 * M.card + 1) fun o => (mark o).getD 0).map fun mk => newMesh mk M
  else none

/-- L238-275: one iteration of the loop. `D` gives the distribution of a mesh over the ranks with its ghosts. -/
def restartStep (G : Grid d) (N : Finset (Oct d)) (lmax : ℕ) (D : Finset (Oct d) → Dist d P)
    (level : ℕ) (M : Finset (Oct d)) : Option (Finset (Oct d)) :=
  markStep G (restartMark G N lmax level) (D M) M

/-- L238: `n` iterations from `level`. -/
def restartLoop (G : Grid d) (N : Finset (Oct d)) (lmax : ℕ) (D : Finset (Oct d) → Dist d P) :
    ℕ → ℕ → Finset (Oct d) → Option (Finset (Oct d))
  | 0, _, M => some M
  | n + 1, level, M => (restartStep G N lmax D level M).bind (restartLoop G N lmax D n (level + 1))

/-- L218-276: the mesh at the end of the loop. -/
def restartMesh (G : Grid d) (N : Finset (Oct d)) (lmax : ℕ) (D : Finset (Oct d) → Dist d P) :
    Option (Finset (Oct d)) :=
  restartLoop G N lmax D (lmax - G.lmin) G.lmin (coarseMesh G)

/-! ### The mesh cut at a level -/

/-- The leaves of `N` up to level `L`, and the octants of level `L` that contain finer leaves. -/
def Cut (N : Finset (Oct d)) (L : ℕ) (o : Oct d) : Prop :=
  (o ∈ N ∧ o.level ≤ L) ∨ (o.level = L ∧ ∃ b ∈ N, L < b.level ∧ Anc o b)

/-- Strictly above a leaf. -/
def Inner (N : Finset (Oct d)) (o : Oct d) : Prop := ∃ b ∈ N, o.level < b.level ∧ Anc o b

section

variable {G : Grid d} (hG : G.WF) {N : Finset (Oct d)} (hN : Tiling G N)
include hG hN

theorem not_mem_of_inner {o : Oct d} (h : Inner N o) : o ∉ N := by
  intro ho
  obtain ⟨b, hb, h1, h2⟩ := h
  rw [hN.eq_of_anc hG ho hb h2] at h1
  exact lt_irrefl _ h1

/-- A leaf comparable with an inner octant is below it. -/
theorem below_of_inner {o c : Oct d} (h : Inner N o) (hc : c ∈ N) (hcmp : Anc c o ∨ Anc o c) :
    Anc o c ∧ o.level < c.level := by
  obtain ⟨b, hb, h1, h2⟩ := h
  rcases hcmp with h3 | h3
  · have := hN.eq_of_anc hG hc hb (h3.trans h2)
    subst this
    have := h3.1
    omega
  · refine ⟨h3, lt_of_le_of_ne h3.1 fun he => ?_⟩
    have := h3.eq_of_level he
    exact not_mem_of_inner hG hN ⟨b, hb, h1, h2⟩ (this ▸ hc)

omit hN in
theorem queryPos_covers (o : Oct d) : Covers G o (queryPos G o) := by
  intro i
  have h0 : (0 : ℚ) < G.count i o.level := by exact_mod_cast count_pos hG i _
  unfold queryPos getCenter getSize lo hi
  rw [cellCount_eq]
  constructor
  · rw [div_le_iff₀ h0, add_mul]
    field_simp
    linarith
  · rw [lt_div_iff₀ h0, add_mul]
    field_simp
    linarith

/-- The marker of an octant of the cut: 1 if and only if the octant is strictly above a leaf. -/
theorem restartMark_cut {lmax L : ℕ} (hlev : ∀ o ∈ N, o.level ≤ lmax) {o : Oct d} (ho : Valid G o)
    (hc : Cut N L o) :
    ∃ m, restartMark G N lmax L o = some m ∧ ((m = 1 ∧ Inner N o ∧ o.level = L) ∨
      (m = 0 ∧ o ∈ N ∧ o.level ≤ L)) := by
  have hq := queryPos_covers hG o
  obtain ⟨b, h1, h2, h3, h4⟩ := C04_getiOctFromPos_correct hG hN G.lmin lmax
    (fun o h => ⟨(hN.valid o h).1, hlev o h⟩) (queryPos G o)
    (fun i => ⟨le_trans (lo_nonneg o i) (hq i).1, lt_of_lt_of_le (hq i).2 (hi_le_one hG ho i)⟩)
  have e : getiOctFromPos (inputGrid G) N G.lmin lmax (queryPos G o) =
      getiOctFromPos G N G.lmin lmax (queryPos G o) := rfl
  unfold restartMark
  rw [e, h1]
  refine ⟨_, rfl, ?_⟩
  rcases hc with ⟨h5, h6⟩ | ⟨h5, h6⟩
  · have := h4 o h5 hq
    subst this
    beta_reduce
    rw [if_neg (by omega)]
    exact Or.inr ⟨rfl, h5, h6⟩
  · have hi : Inner N o := by rw [Inner, h5]; exact h6
    have hcmp : Anc b o ∨ Anc o b := by
      rcases le_total b.level o.level with h | h
      · exact Or.inl (anc_of_covers hG (hN.valid b h2) h h3 hq)
      · exact Or.inr (anc_of_covers hG ho h hq h3)
    have := below_of_inner hG hN hi h2 hcmp
    beta_reduce
    rw [if_pos (by omega)]
    exact Or.inl ⟨rfl, hi, h5⟩

omit hG hN in
/-- If the box of `x` meets `y`, so does the box of a descendant of any depth. -/
theorem exists_fine_touch {x y : Oct d} (hl : G.lmin ≤ x.level) (hx : Valid G x) (ht : Touch G x y)
    (n : ℕ) : ∃ v, Anc x v ∧ v.level = x.level + n ∧ Valid G v ∧ Touch G v y := by
  induction n with
  | zero => exact ⟨x, Anc.refl x, rfl, hx, ht⟩
  | succ n ih =>
    obtain ⟨v, h1, h2, h3, h4⟩ := ih
    obtain ⟨c, c1, c2, c3⟩ := Touch.exists_child (by omega) h4
    exact ⟨c, h1.trans (child_anc c1 c2), by omega, child_valid h3 c1 c2, c3⟩

/-- An inner octant that touches `y` contains a leaf that touches `y`. -/
theorem inner_touch {x y : Oct d} (hx : Valid G x) (hi : Inner N x) (ht : Touch G x y) :
    ∃ c ∈ N, x.level < c.level ∧ Touch G c y := by
  obtain ⟨v, h1, h2, h3, h4⟩ := exists_fine_touch hx.1 hx ht (N.sup Oct.level)
  obtain ⟨c, hc, h5⟩ := hN.exists_anc hG h3 (fun b hb => by
    have : b.level ≤ N.sup Oct.level := Finset.le_sup hb
    omega)
  have hcmp : Anc c x ∨ Anc x c := by
    rcases le_total c.level x.level with h | h
    · exact Or.inl (h5.linear h1 h)
    · exact Or.inr (h1.linear h5 h)
  have := below_of_inner hG hN hi hc hcmp
  exact ⟨c, hc, this.2, Touch.mono_left hG h5 (hN.valid c hc).1 h4⟩

/-- The markers of the restart loop respect the 2:1 rule already. -/
theorem mark_admissible (hB : Balanced G N) {L : ℕ} {M : Finset (Oct d)} (hM : Tiling G M) {mk : Oct d → ℤ}
    (key : ∀ o ∈ M, (mk o = 1 ∧ Inner N o ∧ o.level = L) ∨ (mk o = 0 ∧ o ∈ N ∧ o.level ≤ L)) :
    Admissible G M mk := by
  refine ⟨fun a ha b hb ht => ?_, fun a ha h => ?_⟩
  · rcases key a ha with ⟨a1, a2, a3⟩ | ⟨a1, a2, a3⟩ <;>
      rcases key b hb with ⟨b1, b2, b3⟩ | ⟨b1, b2, b3⟩
    · omega
    · omega
    · obtain ⟨c, hc, h1, h2⟩ := inner_touch hG hN (hM.valid b hb) b2 ht.symm
      have := hB c hc a a2 h2
      omega
    · have := hB b b2 a a2 ht.symm
      omega
  · rcases key a ha with ⟨a1, -⟩ | ⟨a1, -⟩ <;> omega

/-- One iteration goes from the cut at a level to the cut at the next one. -/
theorem markStep_cut (hB : Balanced G N) (h1 : 1 ≤ G.lmin) {lmax L : ℕ} (hlL : G.lmin ≤ L)
    (hmax : L < lmax) (hb : lmax < 2 ^ 30) (D : Dist d P)
    {M : Finset (Oct d)} (hD : GhostComplete G M D.owner D.ghost) (hM : Tiling G M) (hBM : Balanced G M)
    (hcut : ∀ o, o ∈ M ↔ Valid G o ∧ Cut N L o) {mark : Oct d → Option ℤ}
    (hmark : ∀ o ∈ M, ∃ m, mark o = some m ∧ ((m = 1 ∧ Inner N o ∧ o.level = L) ∨ (m = 0 ∧ o ∈ N ∧ o.level ≤ L))) :
    ∃ M', markStep G mark D M = some M' ∧ Tiling G M' ∧ Balanced G M' ∧
      ∀ o, o ∈ M' ↔ Valid G o ∧ Cut N (L + 1) o := by
  have hsome : ∀ o ∈ M, (mark o).isSome = true := by
    intro o ho
    obtain ⟨m, e, -⟩ := hmark o ho
    rw [e]; rfl
  have key : ∀ o ∈ M, ((mark o).getD 0 = 1 ∧ Inner N o ∧ o.level = L) ∨
      ((mark o).getD 0 = 0 ∧ o ∈ N ∧ o.level ≤ L) := by
    intro o ho
    obtain ⟨m, e, h⟩ := hmark o ho
    rw [e]; exact h
  have hA := mark_admissible hG hN hB hM key
  generalize hmk' : (fun o => (mark o).getD 0) = mk at *
  have hmk'' : ∀ o, (mark o).getD 0 = mk o := fun o => by rw [← hmk']
  simp only [hmk''] at key
  have hreq : Requested G M mk := by
    apply requested_of_limited hM h1
    · intro a ha; rcases key a ha with ⟨h, -⟩ | ⟨h, -⟩ <;> omega
    · intro a ha; rcases key a ha with ⟨h, -⟩ | ⟨h, -⟩ <;> omega
    · intro a ha h'; rcases key a ha with ⟨h, -⟩ | ⟨h, -⟩ <;> omega
    · intro a ha; rcases key a ha with ⟨-, -, h⟩ | ⟨-, -, h⟩ <;> omega
  obtain ⟨f, e, hl⟩ := C10_result_is_least_correction hG hM hBM D hD mk hreq
    (2 * M.card + 1) (2 * M.card + 1) (by omega) (by omega)
  have hself : LeastCorrection G M mk mk := ⟨fun a _ => le_refl _, hA, fun mk' _ h => h⟩
  have hf := hl.unique hself
  have hAf := hl.2.1
  refine ⟨newMesh f M, ?_, ?_, ?_, ?_⟩
  · unfold markStep
    rw [if_pos hsome, hmk', e]; rfl
  · apply newMesh_tiling hG hM hAf
    · intro a ha; rw [hf a ha]; exact ⟨hreq.lower a ha, hreq.upper a ha⟩
    · intro a ha h; rw [hf a ha] at h; exact hreq.coarsest a ha h
  · apply newMesh_balanced hG hM hAf
    · intro a ha h; rw [hf a ha] at h; exact hreq.coarsest a ha h
    · intro a ha; rw [hf a ha]; exact hreq.lower a ha
  · intro o
    rw [mem_newMesh hAf]
    constructor
    · rintro ⟨a, ha, h⟩
      have hva := hM.valid a ha
      rcases h with ⟨h2, h3, h4⟩ | ⟨h2, rfl⟩ | ⟨h2, rfl⟩
      · rw [hf a ha] at h2
        obtain ⟨-, hin, hal⟩ := (key a ha).resolve_right (by omega)
        have hvo := child_valid hva h3 h4
        refine ⟨hvo, ?_⟩
        obtain ⟨c, hc, hcmp⟩ := hN.exists_leaf hG hvo
        have hac : Anc c a ∨ Anc a c := by
          rcases hcmp with h | h
          · rcases le_total c.level a.level with hle | hle
            · exact Or.inl (h.linear (child_anc h3 h4) hle)
            · exact Or.inr ((child_anc h3 h4).linear h hle)
          · exact Or.inr ((child_anc h3 h4).trans h)
        have hbel := below_of_inner hG hN hin hc hac
        rcases hcmp with h | h
        · have : c = o := h.eq_of_level (by have := h.1; omega)
          subst this
          exact Or.inl ⟨hc, by omega⟩
        · rcases Nat.lt_or_ge (L + 1) c.level with hlt | hge
          · exact Or.inr ⟨by omega, c, hc, hlt, h⟩
          · have : o = c := h.eq_of_level (by have := h.1; omega)
            subst this
            exact Or.inl ⟨hc, by omega⟩
      · rw [hf o ha] at h2
        obtain ⟨-, hin, hal⟩ := (key o ha).resolve_left (by omega)
        exact ⟨hva, Or.inl ⟨hin, by omega⟩⟩
      · rw [hf a ha] at h2
        rcases key a ha with ⟨h, -⟩ | ⟨h, -⟩ <;> omega
    · rintro ⟨hvo, hcut'⟩
      have below : ∀ b ∈ N, Anc o b → o.level = L + 1 →
          ∃ a ∈ M, Replaces f o a := by
        intro b hbN hob hol
        have hup : Anc (up o L) o := up_anc o (by omega)
        have hva : Valid G (up o L) := hup.valid hvo hlL
        have hin : Inner N (up o L) := ⟨b, hbN, by
          have := hob.1; show L < b.level; omega, hup.trans hob⟩
        have haM : up o L ∈ M := (hcut _).2 ⟨hva, Or.inr ⟨rfl, hin⟩⟩
        refine ⟨up o L, haM, Or.inl ⟨?_, hol, fun i => ?_⟩⟩
        · rw [hf _ haM]
          rcases key _ haM with ⟨h, -⟩ | ⟨-, h, -⟩
          · exact h
          · exact absurd h (not_mem_of_inner hG hN hin)
        · show o.pos i / 2 = o.pos i / 2 ^ (o.level - L)
          rw [show o.level - L = 1 by omega, pow_one]
      rcases hcut' with ⟨h2, h3⟩ | ⟨h2, b, hbN, hbl, hob⟩
      · rcases Nat.lt_or_ge L o.level with hlt | hge
        · exact below o h2 (Anc.refl o) (by omega)
        · have hoM : o ∈ M := (hcut o).2 ⟨hvo, Or.inl ⟨h2, hge⟩⟩
          refine ⟨o, hoM, Or.inr (Or.inl ⟨?_, rfl⟩)⟩
          rw [hf o hoM]
          rcases key o hoM with ⟨-, h, -⟩ | ⟨h, -⟩
          · exact absurd h2 (not_mem_of_inner hG hN h)
          · exact h
      · exact below b hbN hob h2

/-- One iteration of the restart. -/
theorem restartStep_cut (hB : Balanced G N) (h1 : 1 ≤ G.lmin) {lmax L : ℕ} (hlL : G.lmin ≤ L)
    (hlev : ∀ o ∈ N, o.level ≤ lmax) (hmax : L < lmax) (hb : lmax < 2 ^ 30)
    (D : Finset (Oct d) → Dist d P)
    (hD : ∀ M, Tiling G M → GhostComplete G M (D M).owner (D M).ghost)
    {M : Finset (Oct d)} (hM : Tiling G M) (hBM : Balanced G M)
    (hcut : ∀ o, o ∈ M ↔ Valid G o ∧ Cut N L o) :
    ∃ M', restartStep G N lmax D L M = some M' ∧ Tiling G M' ∧ Balanced G M' ∧
      ∀ o, o ∈ M' ↔ Valid G o ∧ Cut N (L + 1) o :=
  markStep_cut hG hN hB h1 hlL hmax hb (D M) (hD M hM) hM hBM hcut
    fun o ho => restartMark_cut hG hN hlev (hM.valid o ho) ((hcut o).1 ho).2

theorem restartLoop_cut (hB : Balanced G N) (h1 : 1 ≤ G.lmin) {lmax : ℕ}
    (hlev : ∀ o ∈ N, o.level ≤ lmax) (hb : lmax < 2 ^ 30) (D : Finset (Oct d) → Dist d P)
    (hD : ∀ M, Tiling G M → GhostComplete G M (D M).owner (D M).ghost) (n L : ℕ)
    (hlL : G.lmin ≤ L) (hn : L + n = lmax) {M : Finset (Oct d)} (hM : Tiling G M)
    (hBM : Balanced G M) (hcut : ∀ o, o ∈ M ↔ Valid G o ∧ Cut N L o) :
    restartLoop G N lmax D n L M = some N := by
  induction n generalizing L M with
  | zero =>
    simp only [restartLoop, Option.some.injEq]
    ext o
    rw [hcut]
    constructor
    · rintro ⟨-, ⟨h, -⟩ | ⟨-, b, hb', h2, -⟩⟩
      · exact h
      · have := hlev b hb'; omega
    · intro ho
      exact ⟨hN.valid o ho, Or.inl ⟨ho, by have := hlev o ho; omega⟩⟩
  | succ n ih =>
    obtain ⟨M', e, t1, t2, t3⟩ := restartStep_cut hG hN hB h1 hlL hlev (by omega) hb D hD hM hBM hcut
    simp only [restartLoop, e, Option.bind_some]
    exact ih (L + 1) (by omega) (by omega) t1 t2 t3

omit hG hN in
theorem mem_coarseMesh (o : Oct d) : o ∈ coarseMesh G ↔ Valid G o ∧ o.level = G.lmin := by
  unfold coarseMesh Valid
  simp only [Finset.mem_image, Fintype.mem_piFinset, Finset.mem_range, Grid.count]
  constructor
  · rintro ⟨p, hp, rfl⟩
    exact ⟨⟨le_refl _, fun i => by simpa using hp i⟩, rfl⟩
  · rintro ⟨⟨-, h2⟩, h3⟩
    refine ⟨o.pos, fun i => ?_, by rw [← h3]⟩
    have := h2 i
    rw [h3] at this
    simpa using this

omit hN in
theorem coarseMesh_tiling : Tiling G (coarseMesh G) := by
  apply tiling_of_anc hG (fun o ho => ((mem_coarseMesh o).1 ho).1) G.lmin (le_refl _)
    (fun o ho => le_of_eq ((mem_coarseMesh o).1 ho).2)
  intro v hv hl
  refine ⟨v, ⟨(mem_coarseMesh v).2 ⟨hv, hl⟩, Anc.refl v⟩, ?_⟩
  rintro b ⟨hb, hab⟩
  exact hab.eq_of_level (by rw [((mem_coarseMesh b).1 hb).2, hl])

omit hG hN in
theorem coarseMesh_balanced : Balanced G (coarseMesh G) := by
  intro a ha b hb _
  rw [((mem_coarseMesh a).1 ha).2, ((mem_coarseMesh b).1 hb).2]
  omega

/-! ### Properties -/

/-- **C38** Starting from the coarse grid, the refinement loop of the restart produces exactly the mesh
that was read: any balanced tiling with levels up to `lmax`, whatever the distribution over ranks. -/
theorem C38_restart_mesh (hB : Balanced G N) (h1 : 1 ≤ G.lmin) (lmax : ℕ)
    (hlm : G.lmin ≤ lmax) (hlev : ∀ o ∈ N, o.level ≤ lmax) (hb : lmax < 2 ^ 30)
    (D : Finset (Oct d) → Dist d P)
    (hD : ∀ M, Tiling G M → GhostComplete G M (D M).owner (D M).ghost) :
    restartMesh G N lmax D = some N := by
  unfold restartMesh
  apply restartLoop_cut hG hN hB h1 hlev hb D hD _ _ (le_refl _) (by omega)
    (coarseMesh_tiling hG) coarseMesh_balanced
  intro o
  rw [mem_coarseMesh]
  constructor
  · rintro ⟨hv, hl⟩
    refine ⟨hv, ?_⟩
    obtain ⟨c, hc, h | h⟩ := hN.exists_leaf hG hv
    · have : c = o := h.eq_of_level (by have := h.1; have := (hN.valid c hc).1; omega)
      subst this
      exact Or.inl ⟨hc, by omega⟩
    · rcases Nat.lt_or_ge G.lmin c.level with hlt | hge
      · exact Or.inr ⟨hl, c, hc, hlt, h⟩
      · have : o = c := h.eq_of_level (by have := h.1; omega)
        subst this
        exact Or.inl ⟨hc, by omega⟩
  · rintro ⟨hv, ⟨h, h2⟩ | ⟨h, -⟩⟩
    · exact ⟨hv, by have := hv.1; omega⟩
    · exact ⟨hv, h⟩

end

/-- Two lists of the leaves of a mesh in Z-order are equal. -/
theorem zlist_unique {e L : ℕ} {l l' : List (Oct d)}
    (h : l.Pairwise fun a b => okey e L a < okey e L b)
    (h' : l'.Pairwise fun a b => okey e L a < okey e L b) (hm : ∀ o, o ∈ l ↔ o ∈ l') : l = l' := by
  have n1 : l.Nodup := h.imp fun hlt he => by rw [he] at hlt; exact lt_irrefl _ hlt
  have n2 : l'.Nodup := h'.imp fun hlt he => by rw [he] at hlt; exact lt_irrefl _ hlt
  have hp : l.Perm l' := (List.perm_ext_iff_of_nodup n1 n2).2 hm
  exact hp.eq_of_pairwise (fun a b _ _ h1 h2 => absurd (lt_trans h1 h2) (lt_irrefl _)) h h'

/-- **C38**, data: the checkpoint writes, for each of its ranks, one block of values per octant; after the
restart every rank reads, for each of its octants, the block of this octant. The number of ranks and the
distribution may be different; the octants are in Z-order in both runs (C14, C18). -/
theorem C38_restart_fields {α : Type} {e L : ℕ} (values : Oct d → α) (old new : List (List (Oct d)))
    (hold : old.flatten.Pairwise fun a b => okey e L a < okey e L b)
    (hnew : new.flatten.Pairwise fun a b => okey e L a < okey e L b)
    (hsame : ∀ o, o ∈ old.flatten ↔ o ∈ new.flatten) (hsize : old.flatten.length < 2 ^ 63)
    (order : List ℕ) (ho : order.Perm (List.range old.length)) :
    ∃ file, collectiveWrite (old.map (List.map values)) order = some (file.map some) ∧
      ∀ r < new.length, readView file (new.map List.length) r = some ((new.getD r []).map values) := by
  have he : old.flatten = new.flatten := zlist_unique hold hnew hsame
  have hlen : ((old.map (List.map values)).map List.length).sum = old.flatten.length := by
    rw [← flatten_size, ← List.map_flatten, List.length_map]
  refine ⟨(old.map (List.map values)).flatten, C36_collective_write _ (by rw [hlen]; omega) order
    (by rw [List.length_map]; exact ho), fun r hr => ?_⟩
  have h := C36_read (old.map (List.map values)).flatten (new.map (List.map values))
    (by rw [← List.map_flatten, ← List.map_flatten, he])
    (by rw [flatten_size, hlen]; exact hsize) (r := r) (by rw [List.length_map]; exact hr)
  rw [List.map_map, show List.length ∘ List.map values = List.length by
    funext l; simp] at h
  rw [h]
  congr 1
  simp [List.getD, hr]

/-! ### Example -/

/-- One rank without ghosts is ghost-complete. -/
theorem oneRank_ghost (G : Grid d) (M : Finset (Oct d)) :
    GhostComplete G M (fun _ => (0 : Fin 1)) (fun _ => ∅) := by
  intro r
  refine ⟨by simp, fun a _ _ b _ hb => ?_⟩
  exact absurd (Subsingleton.elim _ _) hb

/-- A refined mesh is rebuilt, also if the configuration allows one more level. -/
example : restartMesh exGrid exMesh.toFinset 3 (fun _ => (⟨fun _ => 0, fun _ => ∅⟩ : Dist 2 1)) =
    some exMesh.toFinset :=
  C38_restart_mesh exGrid_wf exMesh_tiling exMesh_balanced (by decide) 3 (by decide) (by decide)
    (by norm_num) _ fun M _ => oneRank_ghost exGrid M

/-- Written by two ranks, read by one. -/
example : ∃ file : List ℕ,
    collectiveWrite [[10], [11, 12]] [1, 0] = some (file.map some) ∧
      readView file [3] 0 = some [10, 11, 12] := by
  obtain ⟨file, h1, h2⟩ := C38_restart_fields (d := 2) (e := 3) (L := 1)
    (fun o => 10 + o.pos 0 + 2 * o.pos 1)
    [[⟨1, ![0, 0]⟩], [⟨1, ![1, 0]⟩, ⟨1, ![0, 1]⟩]] [[⟨1, ![0, 0]⟩, ⟨1, ![1, 0]⟩, ⟨1, ![0, 1]⟩]]
    (by decide +kernel) (by decide +kernel) (fun o => Iff.rfl) (by decide) [1, 0] (by decide)
  exact ⟨file, h1, h2 0 (by decide)⟩

end Verif.Restart
