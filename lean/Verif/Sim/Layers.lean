import Verif.Sim.Steps
import Verif.Comm.Facemask

/-!
# C89: which cells of ghosts are exchanged

`discover_ghosts` gives each ghost a mask of faces, and the ghost communicator exchanges the cells in `ghost_count`
layers at the faces of the mask. For an edge or a corner a single face is put in the mask.
-/

namespace Verif.Sim

open Verif.Octree Verif.Adapt Verif.Cells Verif.Partition Verif.Run Verif.Comm

variable {d P : ℕ} {G : Grid d} {e L : ℕ}

/-! ### Specification -/

/-- The direction `off` leaves the octant through the face `f` (upper side if `f.2`), and `f.1` is the first axis along
which it leaves the octant. -/
def LeavesFirst (off : Fin d → SignType) (f : Face d) : Prop :=
  off f.1 = (if f.2 = true then 1 else -1) ∧ ∀ i, i < f.1 → off i = 0

/-- The mask as a number, `1 << face` for the faces `XL, XR, YL, YR, ZL, ZR`. -/
def maskBits (F : List (Face d)) : ℕ := F.foldl (fun m f => m ||| 2 ^ (2 * f.1.val + if f.2 = true then 1 else 0)) 0

/-! ### Masks -/

theorem faceOf_iff (off : Fin d → SignType) (f : Face d) : faceOf off = some f ↔ LeavesFirst off f := by
  unfold LeavesFirst
  obtain ⟨j, sd⟩ := f
  constructor
  · intro h
    unfold faceOf at h
    rw [Option.map_eq_some_iff] at h
    obtain ⟨k, h1, h2⟩ := h
    rw [Prod.mk.injEq] at h2
    obtain ⟨rfl, rfl⟩ := h2
    have hk := List.find?_some h1
    have hk : off k ≠ 0 := by simpa using hk
    constructor
    · dsimp only
      generalize off k = t at hk
      cases t
      · exact absurd rfl hk
      · simp
      · simp
    · intro i hi
      rw [List.find?_eq_some_iff_getElem] at h1
      obtain ⟨-, n, hn, e1, h3⟩ := h1
      have : n = k.val := by
        have := congrArg Fin.val e1
        simpa using this
      have h4 := h3 i.val (by have : i.val < k.val := hi; omega)
      simpa using h4
  · rintro ⟨h1, h2⟩
    dsimp only at h1 h2
    have hj : off j ≠ 0 := by rw [h1]; split <;> decide
    have hf : (List.finRange d).find? (fun j => decide (off j ≠ 0)) = some j := by
      rw [List.find?_eq_some_iff_getElem]
      refine ⟨by simpa using hj, j.val, by simp, by simp, ?_⟩
      intro n hn
      have := h2 ⟨n, by omega⟩ hn
      simpa using this
    unfold faceOf
    rw [hf]
    simp only [Option.map_some, Option.some.injEq, Prod.mk.injEq, true_and]
    rw [h1]
    cases sd <;> simp <;> decide

/-- **C89.** The mask with which the octant `a` is sent to another rank `s` has exactly the faces through which the
directions to leaves of that rank first leave the octant: the face itself for a neighbour behind a face, and one face
for a neighbour behind an edge or a corner. -/
theorem C89_mask_exact (hG : G.WF) {M : Finset (Oct d)} (hM : Tiling G M) (hB : Balanced G M) (hde : d ≤ e)
    (hL : ∀ b ∈ M, b.level ≤ L) {I : ℕ → ℕ} (hc : Cuts e L M P I) {a : Oct d} (ha : a ∈ M) {r s : ℕ} (hs : s < P)
    (hrs : s ≠ r) (f : Face d) :
    f ∈ faceMask e L G I P r a s ↔
      ∃ off, LeavesFirst off f ∧ ∃ b ∈ M, DirAdj G a off b ∧ Owns I s (okey e L b) := by
  rw [mem_faceMask hG hM hB hde hL hc ha hs hrs]
  refine exists_congr fun off => ?_
  rw [faceOf_iff]
  constructor
  · rintro ⟨-, h1, h2⟩
    exact ⟨h1, h2⟩
  · rintro ⟨h1, h2⟩
    refine ⟨fun h0 => ?_, h1, h2⟩
    have := h1.1
    rw [h0] at this
    revert this
    split <;> decide

/-! ### The list of cells of a mask -/

theorem testBit_maskBits (F : List (Face d)) (n : ℕ) :
    (maskBits F).testBit n = true ↔ ∃ f ∈ F, n = 2 * f.1.val + if f.2 = true then 1 else 0 := by
  have key : ∀ m, (F.foldl (fun (m : ℕ) (f : Face d) => m ||| 2 ^ (2 * f.1.val + if f.2 = true then 1 else 0)) m).testBit n = true ↔
      m.testBit n = true ∨ ∃ f ∈ F, n = 2 * f.1.val + if f.2 = true then 1 else 0 := by
    induction F with
    | nil => simp
    | cons f F ih =>
      intro m
      simp only [List.foldl_cons]
      rw [ih, Nat.testBit_or, Nat.testBit_two_pow, Bool.or_eq_true, decide_eq_true_eq]
      simp only [List.mem_cons, exists_eq_or_imp]
      rw [or_assoc]
      refine or_congr_right (or_congr_left ?_)
      exact eq_comm
  rw [maskBits, key]
  simp

theorem face_bit {F : List (Face d)} (j : Fin d) (sd : Bool) :
    (maskBits F).testBit (2 * j.val + if sd = true then 1 else 0) = true ↔ (j, sd) ∈ F := by
  rw [testBit_maskBits]
  constructor
  · rintro ⟨⟨k, t⟩, h1, h2⟩
    have : j = k ∧ sd = t := by
      dsimp only at h2
      cases sd <;> cases t <;> simp only [Bool.false_eq_true, if_true, if_false] at h2 <;>
        refine ⟨Fin.ext (by omega), ?_⟩ <;> first | rfl | (exfalso; omega)
    rw [this.1, this.2]
    exact h1
  · intro h
    exact ⟨_, h, rfl⟩

/-- **C89.** For the mask of the faces `F` the communicator lists (C21) exactly the cells of the block `exchangeLayers`
updates. Three dimensions. -/
theorem C89_listed_cells (blk : Fin 3 → ℕ) {gc : ℕ} (h0 : blk 0 < 2 ^ 32) (h1 : blk 1 < 2 ^ 32) (g0 : gc ≤ blk 0)
    (g1 : gc ≤ blk 1) (F : List (Face 3)) :
    ∃ l, maskCells (blk 0) (blk 1) (blk 2) gc (maskBits F) = .cells l ∧ l.Nodup ∧
      ∀ c, c ∈ l ↔ ∃ y : Fin 3 → ℕ, (∀ k, y k < blk k) ∧ InLayers blk gc F y ∧
        c = y 0 + blk 0 * y 1 + blk 0 * blk 1 * y 2 := by
  obtain ⟨l, e1, e2, e3⟩ := C21_facemask_cells_exact (bz := blk 2) (mask := maskBits F) h0 h1 g0 g1
  refine ⟨l, e1, e2, fun c => ?_⟩
  have key : ∀ y : Fin 3 → ℕ, NearFaces (blk 0) (blk 1) (blk 2) gc (maskBits F) (y 0) (y 1) (y 2) ↔
      (∀ k, y k < blk k) ∧ InLayers blk gc F y := by
    intro y
    have b0 := face_bit (F := F) 0 false
    have b1 := face_bit (F := F) 0 true
    have b2 := face_bit (F := F) 1 false
    have b3 := face_bit (F := F) 1 true
    have b4 := face_bit (F := F) 2 false
    have b5 := face_bit (F := F) 2 true
    simp only [Fin.val_zero, Fin.val_one, Fin.val_two, Bool.false_eq_true, if_true, if_false, Nat.mul_zero, Nat.zero_add,
      Nat.add_zero, Nat.mul_one, Nat.reduceMul, Nat.reduceAdd] at b0 b1 b2 b3 b4 b5
    unfold NearFaces InLayers
    rw [b0, b1, b2, b3, b4, b5, Fin.forall_fin_succ, Fin.forall_fin_two]
    refine and_congr Iff.rfl ?_
    constructor
    · rintro (h | h | h | h | h | h) <;> exact ⟨_, h.1, by simpa using h.2⟩
    · rintro ⟨⟨j, sd⟩, h3, h4⟩
      fin_cases j <;> cases sd <;> simp at h3 h4 <;> simp [h3, h4]
  rw [e3]
  constructor
  · rintro ⟨x, y, z, h, rfl⟩
    exact ⟨![x, y, z], ((key ![x, y, z]).1 h).1, ((key ![x, y, z]).1 h).2, rfl⟩
  · rintro ⟨y, h2, h3, rfl⟩
    exact ⟨y 0, y 1, y 2, (key y).2 ⟨h2, h3⟩, rfl⟩

/-- The same in two dimensions, where blocks have one layer of cells in `z`. -/
theorem C89_listed_cells_2d (blk : Fin 2 → ℕ) {gc : ℕ} (h0 : blk 0 < 2 ^ 32) (h1 : blk 1 < 2 ^ 32) (g0 : gc ≤ blk 0)
    (g1 : gc ≤ blk 1) (F : List (Face 2)) :
    ∃ l, maskCells (blk 0) (blk 1) 1 gc (maskBits F) = .cells l ∧ l.Nodup ∧
      ∀ c, c ∈ l ↔ ∃ y : Fin 2 → ℕ, (∀ k, y k < blk k) ∧ InLayers blk gc F y ∧ c = y 0 + blk 0 * y 1 := by
  obtain ⟨l, e1, e2, e3⟩ := C21_facemask_cells_exact (bz := 1) (mask := maskBits F) h0 h1 g0 g1
  refine ⟨l, e1, e2, fun c => ?_⟩
  have key : ∀ y : Fin 2 → ℕ, NearFaces (blk 0) (blk 1) 1 gc (maskBits F) (y 0) (y 1) 0 ↔
      (∀ k, y k < blk k) ∧ InLayers blk gc F y := by
    intro y
    have b0 := face_bit (F := F) 0 false
    have b1 := face_bit (F := F) 0 true
    have b2 := face_bit (F := F) 1 false
    have b3 := face_bit (F := F) 1 true
    have hz : ∀ n, 4 ≤ n → (maskBits F).testBit n = true → False := by
      intro n hn h
      obtain ⟨f, -, h2⟩ := (testBit_maskBits F n).1 h
      have := f.1.2
      split at h2 <;> omega
    have z4 : (maskBits F).testBit 4 = true ↔ False := ⟨hz 4 (by norm_num), False.elim⟩
    have z5 : (maskBits F).testBit 5 = true ↔ False := ⟨hz 5 (by norm_num), False.elim⟩
    simp only [Fin.val_zero, Fin.val_one, Bool.false_eq_true, if_true, if_false, Nat.mul_zero, Nat.zero_add,
      Nat.add_zero, Nat.mul_one, Nat.reduceAdd] at b0 b1 b2 b3
    unfold NearFaces InLayers
    rw [b0, b1, b2, b3, z4, z5, Fin.forall_fin_two]
    refine and_congr ⟨fun h => ⟨h.1, h.2.1⟩, fun h => ⟨h.1, h.2, Nat.zero_lt_one⟩⟩ ?_
    constructor
    · rintro (h | h | h | h | h | h)
      · exact ⟨_, h.1, by simpa using h.2⟩
      · exact ⟨_, h.1, by simpa using h.2⟩
      · exact ⟨_, h.1, by simpa using h.2⟩
      · exact ⟨_, h.1, by simpa using h.2⟩
      · exact h.1.elim
      · exact h.1.elim
    · rintro ⟨⟨j, sd⟩, h3, h4⟩
      fin_cases j <;> cases sd <;> simp at h3 h4 <;> simp [h3, h4]
  rw [e3]
  constructor
  · rintro ⟨x, y, z, h, rfl⟩
    have hz : z = 0 := by have := h.1.2.2; omega
    subst hz
    exact ⟨![x, y], ((key ![x, y]).1 h).1, ((key ![x, y]).1 h).2, by simp⟩
  · rintro ⟨y, h2, h3, rfl⟩
    exact ⟨y 0, y 1, 0, (key y).2 ⟨h2, h3⟩, by simp⟩

/-! ### What the kernels may read -/

/-- **C89.** At any time of a run, after an exchange of `gc` layers, a rank sees the values of the owner in every cell
of another octant that is separated from one of its own octants by fewer than `gc` cells, behind faces, edges and
corners. -/
theorem C89_layers [NeZero P] (hG : G.WF) (hd : 0 < d) (hde : d ≤ e) (h64 : e * L < 64) (hL : G.lmin ≤ L)
    (hT : ∏ i, G.coarse i < 2 ^ 32) (hP : P ≤ ∏ i, G.coarse i) {mks : List (Oct d → ℤ)} {s : Ranks d P}
    (h : Reach e L G mks s) {T : Type} (F : Fin P → Oct d → (Fin d → ℕ) → T) {blk : Fin d → ℕ} {gc : ℕ} {r q : Fin P}
    {o o' : Oct d} (ho : o ∈ s.octs r) (ho' : o' ∈ s.octs q) {x : Fin d → ℕ} (hx : ∀ k, x k < blk k)
    (hw : Within G blk gc o o' x) : exchangeLayers s blk gc F r o' x = F q o' x := by
  have hs := (reach_good hG hd hde h64 hL hT hP h).1
  have ht : Touch G o o' := Touch.symm fun i => by
    obtain ⟨t, h1, h2, h3, -, -⟩ := hw i
    exact ⟨t, h1, h2, h3⟩
  rw [exchangeLayers_within hG hs F ho (le_refl _)
    ((around hG hs ho).complete o' (mem_mesh ho') ht) hx hw, owner_eq hs ho']

/-- **C89.** In particular, with at least one layer, the values of the owner in every cell that touches a cell of one
of its own octants, of any of the three sizes, across a face, an edge, a corner or the periodic boundary. -/
theorem C89_touching_cells [NeZero P] (hG : G.WF) (hd : 0 < d) (hde : d ≤ e) (h64 : e * L < 64) (hL : G.lmin ≤ L)
    (hT : ∏ i, G.coarse i < 2 ^ 32) (hP : P ≤ ∏ i, G.coarse i) {mks : List (Oct d → ℤ)} {s : Ranks d P}
    (h : Reach e L G mks s) {T : Type} (F : Fin P → Oct d → (Fin d → ℕ) → T) {blk : Fin d → ℕ} {gc : ℕ} (hgc : 1 ≤ gc)
    {r q : Fin P} {o o' : Oct d} (ho : o ∈ s.octs r) (ho' : o' ∈ s.octs q) {x y : Fin d → ℕ} (hx : ∀ k, x k < blk k)
    (hy : ∀ k, y k < blk k) (ht : Touch (cellGrid G blk) (cellOct blk o x) (cellOct blk o' y)) :
    exchangeLayers s blk gc F r o' y = F q o' y := by
  refine C89_layers hG hd hde h64 hL hT hP h F ho ho' hy fun i => ?_
  have hb : ∀ k, 0 < blk k := fun k => by have := hx k; omega
  obtain ⟨t, h1, h2, h3, h4, h5⟩ := within_of_dirAdj hG.toPos hb hx hy ht i
  have hpos : (0 : ℚ) ≤ (hi G o' i - lo G o' i) / blk i :=
    div_nonneg (by have := lo_lt_hi hG.toPos o' i; linarith) (by positivity)
  have hg : (((1 : ℕ) : ℚ)) * ((hi G o' i - lo G o' i) / blk i) ≤ gc * ((hi G o' i - lo G o' i) / blk i) :=
    mul_le_mul_of_nonneg_right (by exact_mod_cast hgc) hpos
  exact ⟨t, h1, h2, h3, by linarith, by linarith⟩

end Verif.Sim
