import Verif.Sim.Blocks

/-!
# Block-based solvers on a rank

The updates of one cell give the same on a rank and on the whole mesh, if the values in a certain number of layers
around the octant are those of the mesh: 4 for `HydroUpdate_hancock`, 2 for `HydroUpdate_euler`.
-/

namespace Verif.Sim

open Verif.Octree Verif.Cells Verif.Flux Verif.Hydro Verif.Remap
open Verif.Partition (Within within_of_dirAdj)

variable {d : ℕ} {K ι V : Type} [Field K] [LinearOrder K]
variable {G : Grid d} {M Mr : Finset (Oct d)} {b : Fin d → ℕ} {o : Oct d} {x : Fin d → ℕ} {I I' : Source d V}

theorem mapM_congr' {α β : Type} {l : List α} {f f' : α → Option β} (h : ∀ a ∈ l, f a = f' a) : l.mapM f = l.mapM f' := by
  induction l with
  | nil => rfl
  | cons a l ih => rw [List.mapM_cons, List.mapM_cons, h a (by simp), ih fun x hx => h x (by simp [hx])]

theorem patches_congr (h : ∀ z, patchRead I G Mr b o z = patchRead I' G M b o z) :
    (loops fun k => List.range (b k + 2 * 2)).mapM (patchVal I G Mr b o) =
      (loops fun k => List.range (b k + 2 * 2)).mapM (patchVal I' G M b o) := by
  refine mapM_congr' fun y hy => ?_
  have hy' : ∀ k, y k < b k + 2 * 2 := fun k => by simpa using (mem_loops _ _).1 hy k
  rw [patchVal_read hy', patchVal_read hy', h]

theorem patchRead_out {z : Fin d → ℤ} (hz : ¬ ∀ k, -2 ≤ z k ∧ z k < b k + 2) : patchRead I G M b o z = none := by
  unfold patchRead inBlock
  rw [if_neg]
  · rfl
  · intro h
    refine hz fun k => ?_
    have := h k
    push_cast at this
    omega

/-! ### `HydroUpdate_hancock` -/

theorem hancock_congr (E : Hancock.Scheme d K ι V) (D : Domain d) (dt u : K)
    (h : ∀ z, patchRead I G Mr b o z = patchRead I' G M b o z) :
    Hancock.updateCell E I D G Mr b dt u o x = Hancock.updateCell E I' D G M b dt u o x := by
  have h1 : Hancock.prim E I G Mr b o = Hancock.prim E I' G M b o := by
    funext z; unfold Hancock.prim; rw [h]
  have h2 : Hancock.slopeAt E I G Mr b o = Hancock.slopeAt E I' G M b o := by
    funext z j; unfold Hancock.slopeAt; rw [h1]
  have h3 : Hancock.sourceAt E I D G Mr b dt o = Hancock.sourceAt E I' D G M b dt o := by
    funext z; unfold Hancock.sourceAt; rw [h1, h2]
  have h4 : Hancock.faceFlux E I D G Mr b dt o = Hancock.faceFlux E I' D G M b dt o := by
    funext z j; unfold Hancock.faceFlux; rw [h2, h3]
  unfold Hancock.updateCell
  rw [patches_congr h, h4]

/-- `HydroUpdate_hancock`: four layers are enough. -/
theorem hancock_same (h : Around G M Mr o) (hb : ∀ k, 4 ≤ b k ∧ 2 ∣ b k) {n : ℕ} (hn : 4 ≤ n)
    (hI : SameSource G b n M o I I') (E : Hancock.Scheme d K ι V) (D : Domain d) (dt u : K) :
    Hancock.updateCell E I D G Mr b dt u o x = Hancock.updateCell E I' D G M b dt u o x := by
  refine hancock_congr E D dt u fun z => ?_
  rw [patchRead_mesh h hb]
  have hself : Around G M M o := ⟨h.wf, h.tiling, h.balanced, fun _ h => h, h.sub _ h.mem, fun _ h _ => h⟩
  by_cases hz : ∀ k, -2 ≤ z k ∧ z k < b k + 2
  · exact patchRead_values hself hb (le_refl 2) hn hI fun k => by have := hz k; push_cast; omega
  · rw [patchRead_out hz, patchRead_out hz]

/-! ### `HydroUpdate_euler` -/

theorem iface_mesh (h : Around G M Mr o) (hb : ∀ k, 4 ≤ b k ∧ 2 ∣ b k) (hx : ∀ k, x k < b k)
    (E : Euler.Scheme d K ι V) (D : Domain d) (j : Fin d) {s : ℤ} (hs : s = 1 ∨ s = -1) :
    Euler.iface E I D G Mr b o x j s = Euler.iface E I D G M b o x j s := by
  have hn : Euler.nextTo I G Mr b o x = Euler.nextTo I G M b o x := by
    funext j t; unfold Euler.nextTo; rw [patchRead_mesh h hb]
  have ho := h.sub _ h.mem
  have hg := getNeighborGhost_congr h.wf h.tiling h.sub ⟨o, x, b, .localToBlock⟩ ho h.complete
  unfold Euler.iface
  rw [patchRead_mesh h hb, hn, hg, hg]
  refine Option.bind_congr fun _ _ => Option.bind_congr fun _ _ => Option.bind_congr fun _ _ =>
    Option.bind_congr fun rn hrn => Option.bind_congr fun ro _ => ?_
  split
  · rfl
  · next hl =>
    congr 1
    refine mapM_congr' fun δ hδ => ?_
    obtain ⟨r, e1, -, e3⟩ := reads h.wf h.tiling h.balanced h.sub ⟨o, x, b, .localToBlock⟩ ho h.complete hx rfl j hs
    have : rn = r := Option.some.inj (hrn.symm.trans e1)
    subst this
    rcases e3 with e3 | ⟨-, -, -, ⟨e3, -⟩ | ⟨-, f, hf⟩⟩
    · exfalso; apply hl; unfold CellIndex.levelDiff; rw [e3]; decide
    · exfalso; apply hl; omega
    · rw [(hf δ hδ).1, (hf δ hδ).2.1]

theorem getNeighbor_some {c r : CellIndex d} {off : Fin d → ℤ} (h : getNeighbor c off = some r) :
    r.oct = c.oct ∧ ∀ k, (r.idx k : ℤ) = c.idx k + off k ∧ r.idx k < c.b k := by
  unfold getNeighbor inBlock at h
  split at h
  · next hi =>
    have := (Option.some.inj h).symm
    subst this
    refine ⟨rfl, fun k => ?_⟩
    have h1 := hi k
    simp only at h1 ⊢
    omega
  · cases h

theorem faceOff_small (j : Fin d) {s : ℤ} (hs : s = 1 ∨ s = -1) (k : Fin d) : -1 ≤ faceOff j s k ∧ faceOff j s k ≤ 1 :=
  abs_le.1 (faceOff_abs (j := j) hs k)

/-- The value one step further in the octant of a neighbour. -/
theorem step_value (h : Around G M M o) (hb : ∀ k, 4 ≤ b k ∧ 2 ∣ b k) (hx : ∀ k, x k < b k) {n : ℕ} (hn : 2 ≤ n)
    (hI : SameSource G b n M o I I') {r p : CellIndex d} (hr : r.oct ∈ M) (hrb : r.b = b) (hri : ∀ k, r.idx k < b k)
    (ht : Touch (cellGrid G b) (cellOct b o x) (cellOct b r.oct r.idx)) (j : Fin d) {s : ℤ} (hs : s = 1 ∨ s = -1)
    (hp : getNeighbor r (faceOff j s) = some p) : I.U p.oct p.idx = I'.U p.oct p.idx := by
  have hG := h.wf.toPos
  have hb0 : ∀ k, 0 < b k := fun k => by have := (hb k).1; omega
  obtain ⟨e1, e2⟩ := getNeighbor_some hp
  rw [e1]
  refine hI.values.2 _ hr _ (fun k => by rw [← hrb]; exact (e2 k).2) ?_
  refine Within.mono hG hn (Within.move hG hb0 (m := 1) (within_of_dirAdj hG hb0 hx hri ht) fun k => ?_)
  have := (e2 k).1
  have := faceOff_small j hs k
  push_cast
  omega

theorem near_value (h : Around G M M o) (hb : ∀ k, 4 ≤ b k ∧ 2 ∣ b k) (hx : ∀ k, x k < b k) {n : ℕ} (hn : 2 ≤ n)
    (hI : SameSource G b n M o I I') {r : CellIndex d} (hr : r.oct ∈ M) (hri : ∀ k, r.idx k < b k)
    (ht : Touch (cellGrid G b) (cellOct b o x) (cellOct b r.oct r.idx)) : I.U r.oct r.idx = I'.U r.oct r.idx := by
  have hG := h.wf.toPos
  have hb0 : ∀ k, 0 < b k := fun k => by have := (hb k).1; omega
  exact hI.values.2 _ hr _ hri (Within.mono hG (by omega) (within_of_dirAdj hG hb0 hx hri ht))

/-- Two steps towards a neighbour of the same size, or over a boundary. -/
theorem far_value (h : Around G M M o) (hb : ∀ k, 4 ≤ b k ∧ 2 ∣ b k) (hx : ∀ k, x k < b k) {n : ℕ} (hn : 2 ≤ n)
    (hI : SameSource G b n M o I I') (j : Fin d) {s : ℤ} (hs : s = 1 ∨ s = -1) {r : CellIndex d}
    (hr : getNeighborGhost G M ⟨o, x, b, .localToBlock⟩ (faceOff j s) = some r) (hl : r.levelDiff = 0) :
    Euler.nextTo I G M b o x j (2 * s) = Euler.nextTo I' G M b o x j (2 * s) := by
  have hG := h.wf.toPos
  have hM := h.tiling
  have ho := h.mem
  have hb0 : ∀ k, 0 < b k := fun k => by have := (hb k).1; omega
  have hoff2 : ∀ k, faceOff j (2 * s) k = 2 * faceOff j s k := fun k => by unfold faceOff; split <;> ring
  have hsm := faceOff_small j hs
  unfold Euler.nextTo
  by_cases hib : 0 ≤ (x j : ℤ) + s ∧ (x j : ℤ) + s < b j
  · refine patchRead_values h hb (t := 1) (by norm_num) hn hI fun k => ?_
    have := inBlock_move hx hib k
    have := hsm k
    rw [hoff2]
    push_cast
    omega
  by_cases hin : InDomain (cellGrid G b) o.level (target b o x (faceOff j s))
  · obtain ⟨r₁, g1, g2, g3, g4, hside⟩ := side hG hM h.balanced ⟨o, x, b, .localToBlock⟩ ho hx rfl j hs hin
    have hr' : r = r₁ := Option.some.inj (hr.symm.trans g1)
    subst hr'
    have hlv : r.oct.level = o.level ∧
        cellOct b r.oct r.idx ∈ nbrs (cellGrid G b) (cellMesh b M) (cellOct b o x) j s := by
      cases hside with
      | same _ hl' hn' _ => exact ⟨hl', by rw [hn']; exact Finset.mem_singleton_self _⟩
      | bigger st _ _ _ => exfalso; revert hl; unfold CellIndex.levelDiff; rw [st]; decide
      | smaller st _ _ _ _ _ => exfalso; rw [levelDiff_smaller st] at hl; omega
    have hedge := edge hG hM h.balanced ho hx g2 g3 hs hlv.2 hib
    have hstep : 0 ≤ (r.idx j : ℤ) + s ∧ (r.idx j : ℤ) + s < b j := by
      have h1 := g3 j
      have h2 := (hb j).1
      rcases hs with rfl | rfl <;> simp only at h1 <;> omega
    rw [patchRead_far hG hM h.balanced ho hb hx hs hin hr hlv.1, patchRead_far hG hM h.balanced ho hb hx hs hin hr hlv.1]
    have e : (fun k => (r.idx k : ℤ) + faceOff j s k) = fun k => ((Flux.move r.idx j s k : ℕ) : ℤ) :=
      funext fun k => (move_cast hstep.1 k).symm
    rw [e, patchRead_interior (move_lt g3 hstep), patchRead_interior (move_lt g3 hstep)]
    congr 1
    have ht := (mem_nbrs.1 hlv.2).2.touch (cellGrid_pos hG hb0)
    refine hI.values.2 _ g2 _ (move_lt g3 hstep)
      (Within.mono hG hn (Within.move hG hb0 (m := 1) (within_of_dirAdj hG hb0 hx g3 ht) fun k => ?_))
    have := move_cast (x := r.idx) (j := j) hstep.1 k
    have := hsm k
    push_cast
    omega
  · have hz : ∀ k, -2 ≤ (x k : ℤ) + faceOff j (2 * s) k ∧ (x k : ℤ) + faceOff j (2 * s) k < b k + 2 := fun k => by
      have := hsm k
      have := hx k
      rw [hoff2]
      omega
    have hout : ¬ InDomain (cellGrid G b) o.level
        (patchPos b (fun _ => 2) o fun k => ((x k : ℤ) + faceOff j (2 * s) k + 2).toNat) := by
      rw [Hancock.patchPos_place hz]
      intro hin2
      apply hin
      intro k
      rcases hin2 k with hp | h2
      · exact Or.inl hp
      · right
        have hv := (cell_valid (hM.valid o ho) hx).2 k
        simp only [cellOct] at hv
        unfold Hancock.place at h2
        unfold target
        have e2 := hoff2 k
        have := hsm k
        have e3 : ((o.pos k * b k + x k : ℕ) : ℤ) = o.pos k * b k + x k := by push_cast; ring
        simp only [e2, ← add_assoc, ← e3] at h2
        generalize (cellGrid G b).count k o.level = c at *
        generalize o.pos k * b k + x k = q at *
        omega
    rw [patchRead_eq hz, patchRead_eq hz]
    obtain ⟨q, h1, h2, h3, -⟩ := C24_boundary hG hM ho hb0 (g := fun _ => 2) (fun k => by have := (hb k).1; omega)
      (fun k => by have := hz k; omega) hout
    unfold patchVal
    rw [h1, Option.bind_some, Option.bind_some, if_pos h2, if_pos h2, hI.bval q h2 h3]

theorem iface_values (h : Around G M M o) (hb : ∀ k, 4 ≤ b k ∧ 2 ∣ b k) (hx : ∀ k, x k < b k) {n : ℕ} (hn : 2 ≤ n)
    (hI : SameSource G b n M o I I') (E : Euler.Scheme d K ι V) (D : Domain d) (j : Fin d) {s : ℤ}
    (hs : s = 1 ∨ s = -1) : Euler.iface E I D G M b o x j s = Euler.iface E I' D G M b o x j s := by
  have hs' : -s = 1 ∨ -s = -1 := by omega
  have near : ∀ t : ℤ, t = 1 ∨ t = -1 → Euler.nextTo I G M b o x j t = Euler.nextTo I' G M b o x j t := by
    intro t ht
    unfold Euler.nextTo
    refine patchRead_values h hb (t := 1) (by norm_num) hn hI fun k => ?_
    have := faceOff_small j ht k
    have := hx k
    push_cast
    omega
  unfold Euler.iface
  rw [near s hs, near (-s) hs', patchRead_interior hx, patchRead_interior hx, hI.values.1 x hx]
  refine Option.bind_congr fun _ _ => Option.bind_congr fun _ _ => Option.bind_congr fun _ _ =>
    Option.bind_congr fun rn hrn => Option.bind_congr fun ro _ => ?_
  obtain ⟨r, e1, -, e3⟩ := reads h.wf h.tiling h.balanced h.sub ⟨o, x, b, .localToBlock⟩ h.mem h.complete hx rfl j hs
  have : rn = r := Option.some.inj (hrn.symm.trans e1)
  subst this
  split
  · next hl =>
    congr 1
    split
    · next hl1 =>
      rcases e3 with e3 | ⟨-, e4, e5, ⟨-, e6, e7⟩ | ⟨e3, -⟩⟩
      · exfalso; revert hl1; unfold CellIndex.levelDiff; rw [e3]; decide
      · cases hp : getNeighbor rn (faceOff j s) with
        | none => rfl
        | some p => rw [Option.map_some, Option.map_some, step_value h hb hx hn hI e6 e4 e5 e7 j hs hp]
      · omega
    · exact far_value h hb hx hn hI j hs hrn (by omega)
  · next hl =>
    congr 1
    refine mapM_congr' fun δ hδ => ?_
    rcases e3 with e3 | ⟨-, -, -, ⟨e3, -⟩ | ⟨-, f, hf⟩⟩
    · exfalso; apply hl; unfold CellIndex.levelDiff; rw [e3]; decide
    · exfalso; apply hl; omega
    · obtain ⟨f1, -, f3, f4, f5, f6⟩ := hf δ hδ
      rw [f1, Option.bind_some, Option.bind_some]
      cases hp : getNeighbor (f δ) (faceOff j s) with
      | none => rfl
      | some p =>
        rw [Option.map_some, Option.map_some, step_value h hb hx hn hI f4 f3 f5 f6 j hs hp,
          near_value h hb hx hn hI f4 f5 f6]

/-- `HydroUpdate_euler`: two layers are enough. -/
theorem euler_same (h : Around G M Mr o) (hb : ∀ k, 4 ≤ b k ∧ 2 ∣ b k) (hx : ∀ k, x k < b k) {n : ℕ} (hn : 2 ≤ n)
    (hI : SameSource G b n M o I I') (E : Euler.Scheme d K ι V) (D : Domain d) (dt u : K) :
    Euler.updateCell E I D G Mr b dt u o x = Euler.updateCell E I' D G M b dt u o x := by
  have hself : Around G M M o := ⟨h.wf, h.tiling, h.balanced, fun _ h => h, h.sub _ h.mem, fun _ h _ => h⟩
  have hf : ∀ j, ∀ s : ℤ, s = 1 ∨ s = -1 → Euler.iface E I D G Mr b o x j s = Euler.iface E I' D G M b o x j s :=
    fun j s hs => (iface_mesh h hb hx E D j hs).trans (iface_values hself hb hx hn hI E D j hs)
  unfold Euler.updateCell
  have hp : (loops fun k => List.range (b k + 2 * 2)).mapM (patchVal I G Mr b o) =
      (loops fun k => List.range (b k + 2 * 2)).mapM (patchVal I G M b o) := patches_congr fun z => patchRead_mesh h hb z
  have hd : ∀ J : Source d V, ∃ l, (loops fun k => List.range (b k + 2 * 2)).mapM (patchVal J G M b o) = some l := by
    intro J
    obtain ⟨l, hl, -⟩ := mapM_both (f := patchVal J G M b o) (f' := patchVal J G M b o)
      (l := loops fun k => List.range (b k + 2 * 2)) fun y hy => by
        obtain ⟨v, hv⟩ := patch_defined (I := J) h.wf.toPos h.tiling h.balanced hself.mem hb
          (y := y) fun k => by simpa using (mem_loops _ _).1 hy k
        exact ⟨v, hv, hv⟩
    exact ⟨l, hl⟩
  obtain ⟨l, hl⟩ := hd I
  obtain ⟨l', hl'⟩ := hd I'
  rw [hp, hl, hl', Option.bind_some, Option.bind_some]
  congr 1
  refine mapM_congr' fun j _ => ?_
  rw [Euler.ifaceL_eq, Euler.ifaceL_eq, Euler.ifaceR_eq, Euler.ifaceR_eq, hf j (-1) (Or.inr rfl), hf j 1 (Or.inl rfl)]

end Verif.Sim
