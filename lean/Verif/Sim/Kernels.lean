import Verif.Sim.Model
import Verif.Sim.Local

/-!
# Kernels of the simulation read only octants that touch

On an octant map that has all octants touching the octant of a cell, with the right values, a kernel gives what it gives
on the whole mesh.
-/

namespace Verif.Sim

open Verif.Octree Verif.Cells Verif.Adapt Verif.Flux Verif.Hydro Verif.Hydro.OneNeighbor Verif.Refine Verif.Remap Verif.Run

variable {d : ℕ} {K ι ν S : Type} [Field K] [LinearOrder K]

/-- Equal on the cells of the octants in `A`. -/
def AgreeOn {T : Type} (b : Fin d → ℕ) (A : Finset (Oct d)) (F F' : Oct d → (Fin d → ℕ) → T) : Prop :=
  ∀ o ∈ A, ∀ x : Fin d → ℕ, (∀ k, x k < b k) → F o x = F' o x

/-- Equal on the cells of `o` and on the cells of octants in `A` that touch a cell of `o`. -/
def AgreeNear {T : Type} (G : Grid d) (b : Fin d → ℕ) (A : Finset (Oct d)) (o : Oct d)
    (F F' : Oct d → (Fin d → ℕ) → T) : Prop :=
  (∀ x : Fin d → ℕ, (∀ k, x k < b k) → F o x = F' o x) ∧
  ∀ o' ∈ A, ∀ x x' : Fin d → ℕ, (∀ k, x k < b k) → (∀ k, x' k < b k) →
    Touch (cellGrid G b) (cellOct b o x) (cellOct b o' x') → F o' x' = F' o' x'

theorem AgreeOn.near {T : Type} {G : Grid d} {b : Fin d → ℕ} {A : Finset (Oct d)} {o : Oct d}
    {F F' : Oct d → (Fin d → ℕ) → T} (h : AgreeOn b A F F') (ho : o ∈ A) : AgreeNear G b A o F F' :=
  ⟨fun x hx => h o ho x hx, fun o' ho' _ x' _ hx' _ => h o' ho' x' hx'⟩

/-- What a rank that holds `o` knows of the mesh. -/
structure Around (G : Grid d) (M Mr : Finset (Oct d)) (o : Oct d) : Prop where
  wf : G.WF
  tiling : Tiling G M
  balanced : Balanced G M
  sub : ∀ b ∈ Mr, b ∈ M
  mem : o ∈ Mr
  complete : ∀ b ∈ M, Touch G o b → b ∈ Mr

theorem mem_cells {b x : Fin d → ℕ} : x ∈ cells b ↔ ∀ k, x k < b k := by
  unfold cells
  rw [mem_loops]
  simp

theorem mapM_both {α β : Type} {l : List α} {f f' : α → Option β} (h : ∀ a ∈ l, ∃ y, f a = some y ∧ f' a = some y) :
    ∃ ys, l.mapM f = some ys ∧ l.mapM f' = some ys := by
  induction l with
  | nil => exact ⟨[], rfl, rfl⟩
  | cons a l ih =>
    obtain ⟨y, h1, h2⟩ := h a (by simp)
    obtain ⟨ys, h3, h4⟩ := ih fun x hx => h x (by simp [hx])
    exact ⟨y :: ys, by rw [List.mapM_cons, h1, h3]; rfl, by rw [List.mapM_cons, h2, h4]; rfl⟩

theorem mapM_both_map {α β γ : Type} {l : List α} {f f' : α → Option β} (g : List β → γ)
    (h : ∀ a ∈ l, ∃ y, f a = some y ∧ f' a = some y) :
    ∃ y, (l.mapM f).map g = some y ∧ (l.mapM f').map g = some y := by
  obtain ⟨ys, h1, h2⟩ := mapM_both h
  exact ⟨g ys, by rw [h1]; rfl, by rw [h2]; rfl⟩

variable {C : Config d K ι ν S} {M Mr : Finset (Oct d)} {o : Oct d} {x : Fin d → ℕ}

theorem slopeSide_congr (h : Around C.grid M Mr o) (hx : ∀ k, x k < C.blk k) {Q Q' : Oct d → (Fin d → ℕ) → ν → K}
    (hQ : AgreeNear C.grid C.blk Mr o Q Q') (j : Fin d) {s : ℤ} (hs : s = 1 ∨ s = -1) (v : ν) :
    ∃ l, slopeSide C Mr Q (cellAt C.blk o x) j s v = some l ∧ slopeSide C M Q' (cellAt C.blk o x) j s v = some l := by
  obtain ⟨r, e1, e2, hr⟩ := reads h.wf h.tiling h.balanced h.sub (cellAt C.blk o x) (h.sub _ h.mem) h.complete hx rfl j hs
  unfold slopeSide
  simp only [e1, e2]
  by_cases hb : r.status = .boundary
  · exact ⟨[], by simp only [if_pos hb], by simp only [if_pos hb]⟩
  simp only [if_neg hb]
  obtain ⟨-, -, hi, hr⟩ := hr.resolve_left hb
  rcases hr with ⟨hl, hm, ht⟩ | ⟨hl, f, hf⟩
  · have := hQ.2 _ hm _ _ hx hi ht
    rcases hl with hl | hl
    · simp only [if_pos hl, this]
      exact ⟨_, rfl, rfl⟩
    · simp only [hl, if_true, this]
      exact ⟨_, rfl, rfl⟩
  · simp only [if_neg (show r.levelDiff ≠ 0 by omega), if_neg (show r.levelDiff ≠ 1 by omega), if_pos hl]
    refine mapM_both fun δ hδ => ?_
    obtain ⟨h1, h1', -, h2, h3, h4⟩ := hf δ hδ
    rw [h1, h1', Option.map_some, Option.map_some, hQ.2 _ h2 _ _ hx h3 h4]
    exact ⟨_, rfl, rfl⟩

theorem slope_congr (h : Around C.grid M Mr o) (hx : ∀ k, x k < C.blk k) {Q Q' : Oct d → (Fin d → ℕ) → ν → K}
    (hQ : AgreeNear C.grid C.blk Mr o Q Q') (j : Fin d) (v : ν) :
    ∃ l, slope C Mr Q (cellAt C.blk o x) j v = some l ∧ slope C M Q' (cellAt C.blk o x) j v = some l := by
  obtain ⟨a, a1, a2⟩ := slopeSide_congr h hx hQ j (Or.inl rfl) v
  obtain ⟨e, e1, e2⟩ := slopeSide_congr h hx hQ j (Or.inr rfl) v
  unfold slope
  rw [a1, a2, e1, e2]
  have := hQ.1 x hx
  simp only [cellAt, this]
  exact ⟨_, rfl, rfl⟩

theorem processDir_congr {D : Domain d} {G : Grid d} {b : Fin d → ℕ} (h : Around G M Mr o) (hx : ∀ k, x k < b k)
    {H H' : Scheme d K S} (hrec : AgreeNear G b Mr o H.recon H'.recon) (hfl : H.flux = H'.flux)
    (hbf : H.bflux o x = H'.bflux o x) (dt : K) (j : Fin d) {s : ℤ} (hs : s = 1 ∨ s = -1) :
    ∃ a, processDir H D G Mr dt (cellAt b o x) j s = some a ∧
      processDir H' D G M dt (cellAt b o x) j s = some a := by
  obtain ⟨r, e1, e2, hr⟩ := reads h.wf h.tiling h.balanced h.sub (cellAt b o x) (h.sub _ h.mem) h.complete hx rfl j hs
  have ho := hrec.1 x hx
  unfold processDir Scheme.riemann
  simp only [e1, e2, hfl]
  by_cases hb : r.status = .boundary
  · simp only [if_pos hb, cellAt, hbf]
    exact ⟨_, rfl, rfl⟩
  simp only [if_neg hb]
  obtain ⟨-, -, hi, hr⟩ := hr.resolve_left hb
  rcases hr with ⟨hl, hm, ht⟩ | ⟨hl, f, hf⟩
  · have := hrec.2 _ hm _ _ hx hi ht
    have hl' : 0 ≤ r.levelDiff := by omega
    simp only [ge_iff_le, if_pos hl', cellAt, this, ho]
    exact ⟨_, rfl, rfl⟩
  · have hl' : ¬ 0 ≤ r.levelDiff := by omega
    simp only [ge_iff_le, if_neg hl', cellAt, ho]
    refine mapM_both_map List.sum fun δ hδ => ?_
    obtain ⟨h1, h1', -, h2, h3, h4⟩ := hf δ hδ
    rw [h1, h1', Option.map_some, Option.map_some, hrec.2 _ h2 _ _ hx h3 h4]
    exact ⟨_, rfl, rfl⟩

theorem updateCell_congr {D : Domain d} {G : Grid d} {b : Fin d → ℕ} (h : Around G M Mr o) (hx : ∀ k, x k < b k)
    {H H' : Scheme d K S} (hrec : AgreeNear G b Mr o H.recon H'.recon) (hfl : H.flux = H'.flux)
    (hbf : H.bflux o x = H'.bflux o x) (dt u : K) :
    ∃ a, updateCell H D G Mr dt u (cellAt b o x) = some a ∧ updateCell H' D G M dt u (cellAt b o x) = some a := by
  have h1 := fun j => processDir_congr (D := D) h hx hrec hfl hbf dt j (Or.inl rfl)
  have h2 := fun j => processDir_congr (D := D) h hx hrec hfl hbf dt j (s := -1) (Or.inr rfl)
  choose a a1 a2 using h1
  choose e e1 e2 using h2
  unfold updateCell
  refine ⟨u + ((List.finRange d).map fun j => a j + e j).sum, ?_, ?_⟩
  · rw [loops_mapM_some _ _ (fun j => a j + e j) fun j _ => by rw [a1, e1]; rfl]; rfl
  · rw [loops_mapM_some _ _ (fun j => a j + e j) fun j _ => by rw [a2, e2]; rfl]; rfl

theorem grad_congr {G : Grid d} {b : Fin d → ℕ} (h : Around G M Mr o) (hx : ∀ k, x k < b k)
    {q q' : Oct d → (Fin d → ℕ) → K} (hq : AgreeNear G b Mr o q q') (j : Fin d) {s : ℤ} (hs : s = 1 ∨ s = -1) :
    ∃ a, grad q G Mr b o x j s = some a ∧ grad q' G M b o x j s = some a := by
  obtain ⟨r, e1, e2, hr⟩ := reads h.wf h.tiling h.balanced h.sub (cellAt b o x) (h.sub _ h.mem) h.complete hx rfl j hs
  have ho := hq.1 x hx
  unfold cellAt at e1 e2
  unfold grad
  simp only [e1, e2, Option.bind_some]
  by_cases hb : r.status = .boundary
  · simp only [if_pos hb]
    exact ⟨_, rfl, rfl⟩
  simp only [if_neg hb]
  obtain ⟨-, -, hi, hr⟩ := hr.resolve_left hb
  rcases hr with ⟨hl, hm, ht⟩ | ⟨hl, f, hf⟩
  · have := hq.2 _ hm _ _ hx hi ht
    have hl' : 0 ≤ r.levelDiff := by omega
    simp only [ge_iff_le, if_pos hl', this, ho]
    exact ⟨_, rfl, rfl⟩
  · have hl' : ¬ 0 ≤ r.levelDiff := by omega
    simp only [ge_iff_le, if_neg hl', ho]
    rw [loops_mapM_some _ _ f fun δ hδ => (hf δ hδ).2.1, loops_mapM_some _ _ f fun δ hδ => (hf δ hδ).1]
    refine ⟨_, rfl, ?_⟩
    simp only [Option.map_some, Option.some.injEq]
    refine List.foldl_ext _ _ _ fun a n hn => ?_
    obtain ⟨δ, hδ, rfl⟩ := List.mem_map.1 hn
    obtain ⟨-, -, -, h2, h3, h4⟩ := hf δ hδ
    rw [hq.2 _ h2 _ _ hx h3 h4]

theorem diffMax_congr {G : Grid d} {b : Fin d → ℕ} (h : Around G M Mr o) (hx : ∀ k, x k < b k)
    {q q' : Oct d → (Fin d → ℕ) → K} (hq : AgreeNear G b Mr o q q') :
    ∃ a, diffMax q G Mr b o x = some a ∧ diffMax q' G M b o x = some a := by
  have h1 := fun j => grad_congr h hx hq j (Or.inl rfl)
  have h2 := fun j => grad_congr h hx hq j (s := -1) (Or.inr rfl)
  choose a a1 a2 using h1
  choose e e1 e2 using h2
  unfold diffMax
  rw [loops_mapM_some _ _ (fun j => [a j, e j]) fun j _ => by rw [a1, e1]; rfl,
    loops_mapM_some _ _ (fun j => [a j, e j]) fun j _ => by rw [a2, e2]; rfl]
  exact ⟨_, rfl, rfl⟩

end Verif.Sim
