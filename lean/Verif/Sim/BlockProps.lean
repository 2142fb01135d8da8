import Verif.Sim.BlockRanks

/-!
# C91: the block-based solvers do not depend on the ranks
-/

namespace Verif.Sim

open Verif.Octree Verif.Cells Verif.Adapt Verif.Flux Verif.Hydro Verif.Run

variable {d P Q : ℕ} {K ι ν : Type} [Field K] [LinearOrder K]

/-- Two results on ranks, both undefined or with the same values in all cells. -/
def SameCells {T : Type} (s : Ranks d P) (t : Ranks d Q) (b : Fin d → ℕ) (u : Fin P → Oct d → (Fin d → ℕ) → T)
    (v : Fin Q → Oct d → (Fin d → ℕ) → T) : Prop :=
  ∀ r q o, o ∈ s.octs r → o ∈ t.octs q → ∀ x, (∀ k, x k < b k) → u r o x = v q o x

theorem Both.meet {T : Type} {s : Ranks d P} {t : Ranks d Q} {b : Fin d → ℕ}
    {u : Option (Fin P → Oct d → (Fin d → ℕ) → T)} {v : Option (Fin Q → Oct d → (Fin d → ℕ) → T)}
    {w : Option (Oct d → (Fin d → ℕ) → T)} (h : Both (Own s b) u w) (h' : Both (Own t b) v w) :
    Both (SameCells s t b) u v := by
  rcases h with ⟨x, y, e1, e2, e3⟩ | ⟨e1, e2⟩ <;> rcases h' with ⟨x', y', k1, k2, k3⟩ | ⟨k1, k2⟩
  · rw [e2] at k2
    cases k2
    exact Or.inl ⟨x, x', e1, k1, fun r q o ho ho' z hz => (e3 r o ho z hz).trans (k3 q o ho' z hz).symm⟩
  · rw [e2] at k2; cases k2
  · rw [e2] at k2; cases k2
  · exact Or.inr ⟨e1, k1⟩

section
variable [NeZero P] [NeZero Q] {C : Blocks d K ι} {e L : ℕ}
  (hG : C.grid.WF) (hd : 0 < d) (hde : d ≤ e) (h64 : e * L < 64) (hL : C.grid.lmin ≤ L)
  (hT : ∏ i, C.grid.coarse i < 2 ^ 32) (hP : P ≤ ∏ i, C.grid.coarse i) (hQ : Q ≤ ∏ i, C.grid.coarse i)
  (hb : ∀ k, 4 ≤ C.blk k ∧ 2 ∣ C.blk k)
include hG hd hde h64 hL hT hP hb

omit hQ in
/-- **C91.** At any time of a run on any number of ranks, whatever the ghosts contain: a step of `HydroUpdate_hancock` or
`HydroUpdate_euler` leaves in the cells of all ranks what the same solver on the whole mesh leaves there, and it is
undefined on ranks if and only if it is undefined there. -/
theorem C91_ranks_update_the_mesh {mks : List (Oct d → ℤ)} {s : Ranks d P} (h : Reach e L C.grid mks s)
    (k : Kernel d K ι ν) (dt : K) (U : Fin P → Oct d → (Fin d → ℕ) → ι → K) :
    Both (Own s C.blk) (blockStep C k s dt U) (globalBlock C k s.mesh dt fun o => U (owner s.octs o) o) := by
  have hs := (reach_good hG hd hde h64 hL hT hP h).1
  exact blockStep_same hG hs hb k dt fun r o ho x _ => by rw [owner_eq hs ho]

omit hQ in
/-- **C91.** The same for `HydroUpdate_RK2`, which exchanges ghosts of its first stage. -/
theorem C91_rk2_ranks_update_the_mesh {mks : List (Oct d → ℤ)} {s : Ranks d P} (h : Reach e L C.grid mks s)
    (E : ι → Euler.Scheme d K ν (ι → K)) (dt : K) (U old : Fin P → Oct d → (Fin d → ℕ) → ι → K) :
    Both (Own s C.blk) (rk2Step C E s dt U old) (globalRK2 C E s.mesh dt fun o => U (owner s.octs o) o) := by
  have hs := (reach_good hG hd hde h64 hL hT hP h).1
  exact rk2Step_same hG hs hb E dt old fun r o ho x _ => by rw [owner_eq hs ho]

include hQ

/-- **C91.** Two runs with the same markers, on different numbers of ranks, with different load balancing and different
contents of ghosts: if the state is equal in all cells, so is the state after the step. -/
theorem C91_independent_of_ranks {mks : List (Oct d → ℤ)} {s : Ranks d P} {t : Ranks d Q} (h : Reach e L C.grid mks s)
    (h' : Reach e L C.grid mks t) (k : Kernel d K ι ν) (dt : K) {U : Fin P → Oct d → (Fin d → ℕ) → ι → K}
    {V : Fin Q → Oct d → (Fin d → ℕ) → ι → K} (hUV : SameCells s t C.blk U V) :
    Both (SameCells s t C.blk) (blockStep C k s dt U) (blockStep C k t dt V) := by
  obtain ⟨hs, ms⟩ := reach_good hG hd hde h64 hL hT hP h
  obtain ⟨ht, mt⟩ := reach_good hG hd hde h64 hL hT hQ h'
  have hm : s.mesh = t.mesh := ms.unique mt
  refine (C91_ranks_update_the_mesh hG hd hde h64 hL hT hP hb h k dt U).meet ?_
  rw [hm]
  exact blockStep_same hG ht hb k dt fun q o ho x hx =>
    (hUV _ q o (owner_mem _ (show o ∈ s.mesh by rw [hm]; exact mem_mesh ho)) ho x hx).symm

/-- **C91.** The same for `HydroUpdate_RK2`. -/
theorem C91_rk2_independent_of_ranks {mks : List (Oct d → ℤ)} {s : Ranks d P} {t : Ranks d Q}
    (h : Reach e L C.grid mks s) (h' : Reach e L C.grid mks t) (E : ι → Euler.Scheme d K ν (ι → K)) (dt : K)
    {U : Fin P → Oct d → (Fin d → ℕ) → ι → K} {V : Fin Q → Oct d → (Fin d → ℕ) → ι → K}
    (hUV : SameCells s t C.blk U V) (old : Fin P → Oct d → (Fin d → ℕ) → ι → K)
    (old' : Fin Q → Oct d → (Fin d → ℕ) → ι → K) :
    Both (SameCells s t C.blk) (rk2Step C E s dt U old) (rk2Step C E t dt V old') := by
  obtain ⟨hs, ms⟩ := reach_good hG hd hde h64 hL hT hP h
  obtain ⟨ht, mt⟩ := reach_good hG hd hde h64 hL hT hQ h'
  have hm : s.mesh = t.mesh := ms.unique mt
  refine (C91_rk2_ranks_update_the_mesh hG hd hde h64 hL hT hP hb h E dt U old).meet ?_
  rw [hm]
  exact rk2Step_same hG ht hb E dt old' fun q o ho x hx =>
    (hUV _ q o (owner_mem _ (show o ∈ s.mesh by rw [hm]; exact mem_mesh ho)) ho x hx).symm

end

/-! ### Defined -/

/-- No correction of the states at faces for constant gravity (`well_balanced`). -/
def Kernel.Plain : Kernel d K ι ν → Prop
  | .hancock _ => True
  | .euler E => ∀ i, (E i).shift = none

section
variable [IsStrictOrderedRing K]

omit [IsStrictOrderedRing K] in
theorem hancock_defined {G : Grid d} {M : Finset (Oct d)} {b : Fin d → ℕ} {V : Type} (hG : G.Pos) (hM : Tiling G M)
    (hB : Balanced G M) (hb : ∀ k, 4 ≤ b k ∧ 2 ∣ b k) {o : Oct d} (ho : o ∈ M) (E : Hancock.Scheme d K ν V)
    (I : Source d V) (D : Domain d) (dt u : K) {x : Fin d → ℕ} (hx : ∀ k, x k < b k) :
    ∃ a, Hancock.updateCell E I D G M b dt u o x = some a := by
  obtain ⟨l, hl⟩ := Hancock.patch_all hG hM hB hb ho I
  have h := fun j : Fin d => Hancock.faceFlux_defined hG hM hB hb ho E I D dt
    (z := Hancock.off (fun k => (x k : ℤ)) j (-1)) (j := j)
    (fun k => by
      have := hx k
      unfold Hancock.off faceOff
      simp only
      split <;> constructor <;> omega)
    (by
      have := hx j
      unfold Hancock.off faceOff
      simp only [if_true]; omega)
  have h' := fun j : Fin d => Hancock.faceFlux_defined hG hM hB hb ho E I D dt (z := fun k => (x k : ℤ)) (j := j)
    (fun k => by have := hx k; constructor <;> omega) (by have := hx j; omega)
  choose f hf using h
  choose f' hf' using h'
  unfold Hancock.updateCell
  rw [hl, Option.bind_some]
  have : (List.finRange d).mapM (fun j =>
      (Hancock.faceFlux E I D G M b dt o (Hancock.off (fun k => (x k : ℤ)) j (-1)) j).bind fun fL =>
        (Hancock.faceFlux E I D G M b dt o (fun k => (x k : ℤ)) j).map fun fR =>
          (fL - fR) * Hancock.ratio D G b dt o j) =
      some ((List.finRange d).map fun j => (f j - f' j) * Hancock.ratio D G b dt o j) := by
    apply OneNeighbor.loops_mapM_some
    intro j _
    rw [hf j, hf' j]; rfl
  rw [this]
  exact ⟨_, rfl⟩

theorem run_defined {C : Blocks d K ι} (hG : C.grid.Pos) {M : Finset (Oct d)} (hM : Tiling C.grid M)
    (hB : Balanced C.grid M) (hd : d = 2 ∨ d = 3) (hD : Domain.Ok C.dom) (hb : ∀ k, 4 ≤ C.blk k ∧ 2 ∣ C.blk k)
    {k : Kernel d K ι ν} (hk : k.Plain) (dt : K) (U : Oct d → (Fin d → ℕ) → ι → K) {o : Oct d} (ho : o ∈ M)
    {x : Fin d → ℕ} (hx : ∀ k, x k < C.blk k) (i : ι) : (k.run C M dt U o x i).isSome := by
  cases k with
  | hancock E =>
    obtain ⟨a, ha⟩ := hancock_defined hG hM hB hb ho (E i) (C.source U) C.dom dt (U o x i) hx
    unfold Kernel.run
    simp only
    rw [ha]; rfl
  | euler E =>
    obtain ⟨a, ha, -⟩ := Euler.updateCell_eq hG hM hB hd hD hb (E i) (hk i) (C.source U) ho hx dt (U o x i)
    unfold Kernel.run
    simp only
    rw [ha]; rfl

theorem global_defined {C : Blocks d K ι} (hG : C.grid.Pos) {M : Finset (Oct d)} (hM : Tiling C.grid M)
    (hB : Balanced C.grid M) (hd : d = 2 ∨ d = 3) (hD : Domain.Ok C.dom) (hb : ∀ k, 4 ≤ C.blk k ∧ 2 ∣ C.blk k)
    {k : Kernel d K ι ν} (hk : k.Plain) (dt : K) (U : Oct d → (Fin d → ℕ) → ι → K) :
    ∃ V, globalBlock C k M dt U = some V := by
  unfold globalBlock
  rw [if_pos fun o ho x hx i => run_defined hG hM hB hd hD hb hk dt U ho hx i]
  exact ⟨_, rfl⟩

variable [NeZero P] {C : Blocks d K ι} {e L : ℕ}

/-- **C91.** On ranks all three solvers are defined, in two and three dimensions: every value they read, also of ghosts,
is in the map of octants of the rank. -/
theorem C91_defined (hG : C.grid.WF) (hd : d = 2 ∨ d = 3) (hde : d ≤ e) (h64 : e * L < 64) (hL : C.grid.lmin ≤ L)
    (hT : ∏ i, C.grid.coarse i < 2 ^ 32) (hP : P ≤ ∏ i, C.grid.coarse i) (hD : Domain.Ok C.dom)
    (hb : ∀ k, 4 ≤ C.blk k ∧ 2 ∣ C.blk k) {mks : List (Oct d → ℤ)} {s : Ranks d P} (h : Reach e L C.grid mks s) (dt : K)
    (U old : Fin P → Oct d → (Fin d → ℕ) → ι → K) :
    (∀ k : Kernel d K ι ν, k.Plain → (blockStep C k s dt U).isSome) ∧
    ∀ E : ι → Euler.Scheme d K ν (ι → K), (∀ i, (E i).shift = none) → (rk2Step C E s dt U old).isSome := by
  have hd0 : 0 < d := by omega
  have hs := (reach_good hG hd0 hde h64 hL hT hP h).1
  constructor
  · intro k hk
    obtain ⟨V, hV⟩ := global_defined hG.toPos hs.tiling hs.balanced hd hD hb hk dt fun o => U (owner s.octs o) o
    rcases C91_ranks_update_the_mesh hG hd0 hde h64 hL hT hP hb h k dt U with ⟨u, v, e1, -, -⟩ | ⟨-, e2⟩
    · rw [e1]; rfl
    · rw [hV] at e2; cases e2
  · intro E hE
    have hk : (Kernel.euler E).Plain := hE
    obtain ⟨V, hV⟩ := global_defined hG.toPos hs.tiling hs.balanced hd hD hb hk dt fun o => U (owner s.octs o) o
    obtain ⟨W, hW⟩ := global_defined hG.toPos hs.tiling hs.balanced hd hD hb hk dt V
    rcases C91_rk2_ranks_update_the_mesh hG hd0 hde h64 hL hT hP hb h E dt U old with ⟨u, v, e1, -, -⟩ | ⟨-, e2⟩
    · rw [e1]; rfl
    · unfold globalRK2 at e2
      rw [hV, Option.bind_some, hW] at e2
      cases e2

end

end Verif.Sim
