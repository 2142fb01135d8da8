import Verif.Remap.Cell
import Verif.Remap.Volume
import Verif.Adapt.Props

/-!
# C30: remapping after adaptation
-/

namespace Verif.Remap

open Verif.Octree Verif.Cells Verif.Adapt

variable {d P : ℕ} {K : Type} [Field K] {G : Grid d} {M : Finset (Oct d)}

theorem mem_rankNew (D : Dist d P) (f : Oct d → ℤ) (r : Fin P) (o : Oct d) :
    o ∈ rankNew D M f r ↔ ∃ a ∈ M, D.owner a = r ∧ o ∈ written (f a) a := by
  unfold rankNew newMesh rankOld
  simp only [Finset.mem_biUnion, Finset.mem_filter, List.mem_toFinset, and_assoc]

theorem mem_localMap_sub {D : Dist d P} (hD : GhostComplete G M D.owner D.ghost) (r : Fin P) :
    ∀ b ∈ localMap D M r, b ∈ M := by
  intro b hb
  unfold localMap at hb
  rw [Finset.mem_union, Finset.mem_filter] at hb
  rcases hb with h | h
  · exact h.1
  · exact (hD r).1 b h

theorem own_mem_localMap {D : Dist d P} {a : Oct d} (ha : a ∈ M) {r : Fin P} (hr : D.owner a = r) :
    a ∈ localMap D M r := by
  unfold localMap
  rw [Finset.mem_union, Finset.mem_filter]
  exact Or.inl ⟨ha, hr⟩

theorem localMap_complete {D : Dist d P} (hD : GhostComplete G M D.owner D.ghost) {a : Oct d}
    (ha : a ∈ M) {r : Fin P} (hr : D.owner a = r) : ∀ b ∈ M, Touch G a b → b ∈ localMap D M r := by
  intro b hb ht
  by_cases h : D.owner b = r
  · exact own_mem_localMap hb h
  · unfold localMap
    rw [Finset.mem_union]
    exact Or.inr ((hD r).2 a ha hr b hb h ht)

/-- Every new cell of a rank gets the right value, without reading ghosts. -/
theorem remapCell_spec [CharZero K] (hG : G.WF) (hM : Tiling G M) (hB : Balanced G M)
    (hd : d = 2 ∨ d = 3) {D : Dist d P} (hD : GhostComplete G M D.owner D.ghost) {f : Oct d → ℤ}
    (hA : Admissible G M f) (hc : ∀ a ∈ M, f a = -1 → G.lmin < a.level)
    (hT : Together M f D.owner) {minLevel maxLevel : ℕ}
    (hlev : ∀ o ∈ M, minLevel ≤ o.level ∧ o.level ≤ maxLevel) {b : Fin d → ℕ} (V : Oct d → K)
    (U : Oct d → (Fin d → ℕ) → K) {r : Fin P}
    (hU : ∀ o ∈ M, D.owner o = r → ∀ x : Fin d → ℕ, (∀ k, x k < b k) → U o x = V (cellOct b o x))
    {o : Oct d} (ho : o ∈ rankNew D M f r) {x : Fin d → ℕ} (hx : ∀ k, x k < b k) :
    ∃ v, remapCell G (localMap D M r) (fun o => decide (D.owner o ≠ r)) minLevel maxLevel U
        ⟨o, x, b, .localToBlock⟩ = some (v, 0) ∧
      Remapped V (cellMesh b M) (cellOct b o x) v := by
  have hsub := mem_localMap_sub hD r
  obtain ⟨a, ha, hr, hw⟩ := (mem_rankNew D f r o).1 ho
  have haM := own_mem_localMap ha hr
  unfold written at hw
  split at hw
  · obtain ⟨h1, h2⟩ := (mem_children a o).1 hw
    obtain ⟨y, hy, hanc, e⟩ := remapCell_refine hG.toPos hM hsub
      (fun o => decide (D.owner o ≠ r)) haM (hlev a ha) h1 h2 U b x hx
    refine ⟨_, e, Or.inr (Or.inl ⟨cellOct b a y, mem_cellMesh.2 ⟨a, ha, y, hy, rfl⟩, ?_, hanc,
      hU a ha hr y hy⟩)⟩
    simp only [cellOct]; omega
  · split at hw
    · obtain rfl := List.mem_singleton.1 hw
      refine ⟨_, remapCell_keep hG.toPos hM hsub _ haM (hlev o ha) U b x,
        Or.inl ⟨mem_cellMesh.2 ⟨o, ha, x, hx, rfl⟩, hU o ha hr x hx⟩⟩
    · split at hw
      · next hm =>
        split at hw
        · obtain rfl := List.mem_singleton.1 hw
          have hl := hc a ha hm
          have hch : ∀ c : Oct d, c.level = (parent a).level + 1 →
              (∀ k, c.pos k / 2 = (parent a).pos k) → c ∈ M ∧ D.owner c = r := by
            intro c h1 h2
            have hs : Sibling c a := ⟨by simp only [parent] at h1; omega, h2⟩
            exact ⟨(hA.sib a ha hm c hs).1, (hT a ha hm c hs).trans hr⟩
          have hl' : (parent a).level + 1 = a.level := by simp only [parent]; omega
          obtain ⟨h1, h2⟩ := remapCell_coarsen hG hM hB hd hsub
            (fun o => decide (D.owner o ≠ r)) (parent_valid (hM.valid a ha) hl)
            (fun c h1 h2 => own_mem_localMap (hch c h1 h2).1 (hch c h1 h2).2)
            (by rw [hl']; exact hlev a ha) V U b x hx
            (fun c h1 h2 y hy => hU c (hch c h1 h2).1 (hch c h1 h2).2 y hy)
            (fun c h1 h2 => by simp [(hch c h1 h2).2])
          refine ⟨_, h2, Or.inr (Or.inr ⟨h1, ?_⟩)⟩
          rw [div_mul_cancel₀]
          exact pow_ne_zero _ (by exact_mod_cast (by omega : (2 : ℕ) ≠ 0))
        · simp at hw
      · simp at hw

/-- An octant is written for one old octant only. -/
theorem written_unique (hG : G.Pos) (hM : Tiling G M) {f : Oct d → ℤ}
    (hc : ∀ a ∈ M, f a = -1 → G.lmin < a.level) {a a' o : Oct d} (ha : a ∈ M) (ha' : a' ∈ M)
    (h : o ∈ written (f a) a) (h' : o ∈ written (f a') a') : a = a' := by
  have key : ∀ a ∈ M, o ∈ written (f a) a → (o.level = a.level + 1 ∧ ∀ i, o.pos i / 2 = a.pos i) ∨
      o = a ∨ (o = parent a ∧ 1 ≤ a.level ∧ ∀ i, a.pos i % 2 = 0) := by
    intro a ha h
    unfold written at h
    split at h
    · exact Or.inl ((mem_children a o).1 h)
    · split at h
      · exact Or.inr (Or.inl (List.mem_singleton.1 h))
      · split at h
        · next hm =>
          split at h
          · next he =>
            have := hc a ha hm
            exact Or.inr (Or.inr ⟨List.mem_singleton.1 h, by omega, he⟩)
          · simp at h
        · simp at h
  have up : ∀ a : Oct d, 1 ≤ a.level → Anc (parent a) a := fun a h =>
    ⟨by simp only [parent]; omega, fun i => by
      simp only [parent]; rw [show a.level - (a.level - 1) = 1 by omega, pow_one]⟩
  rcases key a ha h with ⟨h1, h2⟩ | rfl | ⟨rfl, h1, h2⟩ <;>
    rcases key a' ha' h' with ⟨h1', h2'⟩ | h1' | ⟨h0', h1', h2'⟩
  · exact Oct.ext' (by omega) fun i => by rw [← h2 i, ← h2' i]
  · exact hM.eq_of_anc hG ha ha' (h1' ▸ child_anc h1 h2)
  · exact hM.eq_of_anc hG ha ha' ((child_anc h1 h2).trans (h0' ▸ up a' h1'))
  · exact (hM.eq_of_anc hG ha' ha (child_anc h1' h2')).symm
  · exact h1'
  · have := up a' h1'
    rw [← h0'] at this
    exact hM.eq_of_anc hG ha ha' this
  · exact (hM.eq_of_anc hG ha' ha ((child_anc h1' h2').trans (up a h1))).symm
  · have := up a h1
    rw [h1'] at this
    exact (hM.eq_of_anc hG ha' ha this).symm
  · have e1 : a.level - 1 = a'.level - 1 := congrArg (fun q : Oct d => q.level) h0'
    refine Oct.ext' (by omega) fun i => ?_
    have e2 : a.pos i / 2 = a'.pos i / 2 := congrFun (congrArg (fun q : Oct d => q.pos) h0') i
    have := h2 i
    have := h2' i
    omega

/-- The integral of remapped values. -/
theorem integral_eq [CharZero K] (hG : G.Pos) (hM : Tiling G M) {b : Fin d → ℕ} (hb : ∀ k, 0 < b k)
    {N : Finset (Oct d)} (hN : Tiling G N) (V : Oct d → K) {L : ℕ} (hL0 : G.lmin ≤ L)
    (hL : ∀ o ∈ M, o.level < L) (hLN : ∀ o ∈ N, o.level ≤ L)
    (part : Fin P → Finset (Oct d)) (hpart : ∀ o, o ∈ N ↔ ∃ r, o ∈ part r)
    (hdisj : ∀ r r' o, o ∈ part r → o ∈ part r' → r = r') (W : Fin P → Oct d → (Fin d → ℕ) → K)
    (hW : ∀ r, ∀ o ∈ part r, ∀ x : Fin d → ℕ, (∀ k, x k < b k) →
      Remapped V (cellMesh b M) (cellOct b o x) (W r o x)) :
    ∑ r, ∑ o ∈ part r, ∑ x ∈ block b, (cellVolume G b o : K) * W r o x =
      ((∏ k, (1 / ((G.count k L : ℚ) * b k)) : ℚ) : K) *
        ∑ p ∈ fine (cellGrid G b) L, at' (cellMesh b M) V L p := by
  have hG' := cellGrid_pos hG hb
  have hA := cellMesh_tiling hG hb hM
  have hAN := cellMesh_tiling hG hb hN
  have hLA : ∀ q ∈ cellMesh b M, q.level < L := by
    intro q hq
    obtain ⟨o, ho, x, hx, rfl⟩ := mem_cellMesh.1 hq
    exact hL o ho
  have hLAN : ∀ q ∈ cellMesh b N, q.level ≤ L := by
    intro q hq
    obtain ⟨o, ho, x, hx, rfl⟩ := mem_cellMesh.1 hq
    exact hLN o ho
  have hN' : N = Finset.univ.biUnion part := by
    ext o; rw [hpart]; simp
  rw [← sum_desc hG' hAN hL0 hLAN, sum_cellMesh, hN', Finset.sum_biUnion, Finset.mul_sum]
  · refine Finset.sum_congr rfl fun r _ => ?_
    rw [Finset.mul_sum]
    refine Finset.sum_congr rfl fun o ho => ?_
    rw [Finset.mul_sum]
    refine Finset.sum_congr rfl fun x hx => ?_
    have hx' : ∀ k, x k < b k := by simpa [block] using hx
    have hoN := (hpart o).2 ⟨r, ho⟩
    rw [← (hW r o ho x hx').sum hG' hA hLA,
      cellVolume_eq hG b (hN.valid o hoN).1 (hLN o hoN)]
    simp only [cellOct]
    push_cast
    ring
  · intro r _ r' _ hne
    rw [Function.onFun, Finset.disjoint_left]
    intro o h h'
    exact hne (hdisj r r' o h h')

/-- C30 (partial: families to be coarsened are not spread over several ranks, see
`C30_split_family_no_result`): after adaptation every cell has the right value, and the integral of the
field over all ranks is the same as before. -/
theorem C30_remap_partial [CharZero K] (hG : G.WF) (hM : Tiling G M) (hB : Balanced G M)
    (hd : d = 2 ∨ d = 3) (D : Dist d P) (hD : GhostComplete G M D.owner D.ghost) (mk f : Oct d → ℤ)
    (hq : Requested G M mk) (innerFuel fuel : ℕ) (h1 : 2 * M.card < innerFuel)
    (h2 : 2 * M.card < fuel) (hf : outerLoop G D M innerFuel fuel mk = some f)
    (hT : Together M f D.owner) (minLevel maxLevel : ℕ)
    (hlev : ∀ o ∈ M, minLevel ≤ o.level ∧ o.level ≤ maxLevel) (b : Fin d → ℕ) (hb : ∀ k, 0 < b k)
    (V : Oct d → K) (U : Fin P → Oct d → (Fin d → ℕ) → K)
    (hU : ∀ r, ∀ o ∈ M, D.owner o = r → ∀ x : Fin d → ℕ, (∀ k, x k < b k) →
      U r o x = V (cellOct b o x))
    (exch : (Fin P → Oct d → (Fin d → ℕ) → K) → Fin P → Oct d → (Fin d → ℕ) → K) (depth : ℕ) :
    ∃ U', remapAux G D M f b minLevel maxLevel exch (depth + 1) U = some U' ∧
      (∀ o ∈ newMesh f M, ∃! r, o ∈ rankNew D M f r) ∧
      (∀ r, ∀ o ∈ rankNew D M f r, ∀ x : Fin d → ℕ, (∀ k, x k < b k) →
        Remapped V (cellMesh b M) (cellOct b o x) (U' r o x)) ∧
      ∑ r, ∑ o ∈ rankNew D M f r, ∑ x ∈ block b, (cellVolume G b o : K) * U' r o x =
        ∑ r, ∑ o ∈ rankOld D M r, ∑ x ∈ block b, (cellVolume G b o : K) * U r o x := by
  obtain ⟨g, e, hR, h3, hA, -⟩ := outerLoop_spec hG hM hB D hD innerFuel h1 fuel mk hq
    (lt_of_le_of_lt (room_le hq) h2)
  rw [hf, Option.some.injEq] at e
  subst e
  have hval : ∀ a ∈ M, -1 ≤ f a ∧ f a ≤ 1 := fun a ha => ⟨hR.lower a ha, hR.upper a ha⟩
  have hc := hR.coarsest
  have hN := newMesh_tiling hG hM hA hval hc
  have hpart : ∀ o, o ∈ newMesh f M ↔ ∃ r, o ∈ rankNew D M f r := by
    intro o
    simp only [mem_rankNew]
    unfold newMesh
    simp only [Finset.mem_biUnion, List.mem_toFinset]
    constructor
    · rintro ⟨a, ha, h⟩
      exact ⟨_, a, ha, rfl, h⟩
    · rintro ⟨r, a, ha, -, h⟩
      exact ⟨a, ha, h⟩
  have hdisj : ∀ r r' o, o ∈ rankNew D M f r → o ∈ rankNew D M f r' → r = r' := by
    intro r r' o h h'
    obtain ⟨a, ha, hr, hw⟩ := (mem_rankNew D f r o).1 h
    obtain ⟨a', ha', hr', hw'⟩ := (mem_rankNew D f r' o).1 h'
    rw [← hr, ← hr', written_unique hG.toPos hM hc ha ha' hw hw']
  let cell := fun (r : Fin P) o x => remapCell G (localMap D M r) (fun o => decide (D.owner o ≠ r))
    minLevel maxLevel (U r) ⟨o, x, b, .localToBlock⟩
  have hcell : ∀ r, ∀ o ∈ rankNew D M f r, ∀ x : Fin d → ℕ, (∀ k, x k < b k) →
      ∃ v, cell r o x = some (v, 0) ∧ Remapped V (cellMesh b M) (cellOct b o x) v :=
    fun r o ho x hx => remapCell_spec hG hM hB hd hD hA hc hT hlev V (U r) (hU r) ho hx
  have hblock : ∀ x, x ∈ block b ↔ ∀ k, x k < b k := fun x => by simp [block]
  let W : Fin P → Oct d → (Fin d → ℕ) → K := fun r o x => match cell r o x with
    | some (v, _) => v
    | none => 0
  have hpass : ∀ r, remapPass G D M f b minLevel maxLevel (U r) r = some (W r, 0) := by
    intro r
    unfold remapPass
    simp only
    rw [if_pos]
    · have : ∑ o ∈ rankNew D M f r, ∑ x ∈ block b, (match cell r o x with
          | some (_, n) => n
          | none => 0) = 0 := by
        refine Finset.sum_eq_zero fun o ho => Finset.sum_eq_zero fun x hx => ?_
        obtain ⟨v, hv, -⟩ := hcell r o ho x ((hblock x).1 hx)
        rw [hv]
      rw [Option.some.injEq, Prod.mk.injEq]
      exact ⟨rfl, this⟩
    · intro o ho x hx
      obtain ⟨v, hv, -⟩ := hcell r o ho x ((hblock x).1 hx)
      have hv' := hv
      simp only [cell] at hv'
      rw [hv']
      rfl
  have hWR : ∀ r, ∀ o ∈ rankNew D M f r, ∀ x : Fin d → ℕ, (∀ k, x k < b k) →
      Remapped V (cellMesh b M) (cellOct b o x) (W r o x) := by
    intro r o ho x hx
    obtain ⟨v, hv, h⟩ := hcell r o ho x hx
    simp only [W, hv]
    exact h
  refine ⟨W, ?_, fun o ho => ?_, hWR, ?_⟩
  · unfold remapAux
    simp only [hpass]
    simp
  · obtain ⟨r, hr⟩ := (hpart o).1 ho
    exact ⟨r, hr, fun r' hr' => hdisj r' r o hr' hr⟩
  · let L := M.sup Oct.level + (newMesh f M).sup Oct.level + 1 + G.lmin
    have hL : ∀ o ∈ M, o.level < L := fun o ho => by
      have : o.level ≤ M.sup Oct.level := Finset.le_sup ho
      omega
    have hLN : ∀ o ∈ newMesh f M, o.level ≤ L := fun o ho => by
      have : o.level ≤ (newMesh f M).sup Oct.level := Finset.le_sup ho
      omega
    have hL0 : G.lmin ≤ L := by omega
    rw [integral_eq hG.toPos hM hb hN V hL0 hL hLN _ hpart hdisj W hWR,
      integral_eq hG.toPos hM hb hM V hL0 hL (fun o ho => (hL o ho).le) (rankOld D M)
        (fun o => by simp [rankOld])
        (fun r r' o h h' => by
          simp only [rankOld, Finset.mem_filter] at h h'; rw [← h.2, ← h'.2]) U]
    intro r o ho x hx
    simp only [rankOld, Finset.mem_filter] at ho
    exact Or.inl ⟨mem_cellMesh.2 ⟨o, ho.1, x, hx, rfl⟩, hU r o ho.1 ho.2 x hx⟩

/-- If a pass counts a ghost, the recursion never ends: the count does not depend on the values. -/
theorem remapAux_diverges (D : Dist d P) (f : Oct d → ℤ) (b : Fin d → ℕ) (minLevel maxLevel : ℕ)
    (exch : (Fin P → Oct d → (Fin d → ℕ) → K) → Fin P → Oct d → (Fin d → ℕ) → K)
    (h : ∀ U : Fin P → Oct d → (Fin d → ℕ) → K, ∃ r v n,
      remapPass G D M f b minLevel maxLevel (U r) r = some (v, n + 1)) (fuel : ℕ)
    (U : Fin P → Oct d → (Fin d → ℕ) → K) :
    remapAux G D M f b minLevel maxLevel exch fuel U = none := by
  induction fuel generalizing U with
  | zero => rfl
  | succ fuel ih =>
    unfold remapAux
    simp only
    split
    · rw [if_neg, ih]
      obtain ⟨r, v, n, e⟩ := h U
      rw [Finset.sum_eq_zero_iff]
      push Not
      refine ⟨r, Finset.mem_univ _, ?_⟩
      rw [e]
      exact Nat.succ_ne_zero n
    · rfl

end Verif.Remap
