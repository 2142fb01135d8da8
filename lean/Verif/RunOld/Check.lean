import Verif.RunOld.Props

/-!
# C82: runs that fail, and one that meets the hypotheses
-/

namespace Verif.RunOld

open Verif.Octree Verif.Adapt Verif.Partition Verif.Run Verif.AdaptOld Verif.Morton

/-- There are at most as many blocks as octants of the level `level` levels above the finest one. -/
theorem separated_card {d P e L level : ℕ} {G : Grid d} {M : Finset (Oct d)} {g : List (Oct d)}
    (hs : Sorted e L (2 ^ 64 - 1) G M g) (hl : level ≤ L) (h : Separated e L level P g) :
    P ≤ 2 ^ (d * (L - level)) := by
  have hN := hs.first.1
  have hlt : ∀ r : Fin P, g.length * r / P < g.length := fun r => evenIdx_lt hN r.2
  let K : Fin P → ℕ := fun r => okey e L (g[g.length * r / P]'(hlt r)) / 2 ^ (e * level)
  have hstep : ∀ r : ℕ, ∀ h1 : r + 1 < P, K ⟨r, by omega⟩ < K ⟨r + 1, h1⟩ := by
    intro r h1
    refine lt_of_le_of_ne (Nat.div_le_div_right ?_) ?_
    · have h2 := hs.keyAt_mono (evenIdx_mono (N := g.length) (P := P) (Nat.le_succ r))
      rw [keyAt_of_lt (evenIdx_lt hN (by omega)), keyAt_of_lt (evenIdx_lt hN h1)] at h2
      exact h2
    · exact h r h1 _ _ (List.getElem?_eq_getElem (hlt ⟨r, by omega⟩)) (List.getElem?_eq_getElem (hlt ⟨r + 1, h1⟩))
  have hlt2 : ∀ (j i : ℕ) (hj : j < P) (hij : i < j), K ⟨i, by omega⟩ < K ⟨j, hj⟩ := by
    intro j
    induction j with
    | zero => intro i _ hij; omega
    | succ j ih =>
      intro i hj hij
      rcases Nat.lt_or_ge i j with h1 | h1
      · exact (ih i (by omega) h1).trans (hstep j hj)
      · have : i = j := by omega
        subst this
        exact hstep i hj
  have hinj : Function.Injective K := by
    intro i j hij
    rcases Nat.lt_trichotomy i j with h1 | h1 | h1
    · exact absurd hij (ne_of_lt (hlt2 j i j.2 h1))
    · exact Fin.ext h1
    · exact absurd hij (ne_of_gt (hlt2 i j i.2 h1))
  have hmem : ∀ r, K r ∈ (Finset.univ : Finset (Fin d → Fin (2 ^ (L - level)))).image
      fun p => zkey d e (L - level) fun i => (p i : ℕ) := by
    intro r
    set a := g[g.length * r / P]'(hlt r) with ha
    have haM : a ∈ M := (hs.mem a).1 (List.getElem_mem _)
    have haL := hs.level a haM
    have hpos := fun i => (hs.tiling.valid a haM).lt_pow hs.wf i
    have hk : K r = zkey d e (L - level) fun c => a.pos c * 2 ^ (L - a.level) / 2 ^ level := by
      have h1 := zkey_div (d := d) hs.dim (L - level) level fun c => a.pos c * 2 ^ (L - a.level)
      rw [Nat.sub_add_cancel hl] at h1
      exact h1
    rw [Finset.mem_image]
    refine ⟨fun c => ⟨a.pos c * 2 ^ (L - a.level) / 2 ^ level, ?_⟩, Finset.mem_univ _, hk.symm⟩
    rw [Nat.div_lt_iff_lt_mul (by positivity), ← pow_add, Nat.sub_add_cancel hl]
    calc a.pos c * 2 ^ (L - a.level) < 2 ^ a.level * 2 ^ (L - a.level) :=
          Nat.mul_lt_mul_of_pos_right (hpos c) (by positivity)
      _ = 2 ^ L := by rw [← pow_add, Nat.add_sub_cancel' haL]
  have h1 := Finset.card_le_card_of_injOn (s := (Finset.univ : Finset (Fin P))) K (fun r _ => hmem r)
    hinj.injOn
  have h2 := h1.trans Finset.card_image_le
  simp only [Finset.card_univ, Fintype.card_fin, Fintype.card_fun] at h2
  rwa [← pow_mul, Nat.mul_comm (L - level) d] at h2

/-- **C82**, disagreement. With more ranks than blocks of the size that is to be kept together, load balancing
leaves a rank without octants and the program is aborted (L869), however many leaves there are. -/
theorem C82_too_many_ranks_fails {d P : ℕ} [NeZero P] {e L lmin level : ℕ} {periodic : Fin d → Bool}
    (hde : d ≤ e) (h64 : e * L < 64) (hL : lmin ≤ L) (hl : level ≤ L) (hP : 2 ^ (d * (L - level)) < P)
    {mks : List (Oct d → ℤ)} {s : Ranks d P} (h : Reach e L lmin periodic mks s) :
    balance e L (cube lmin periodic) level s = none := by
  have hg := reach_good hde h64 hL h
  have hs := sorted_of_distributed (cube_wf lmin periodic) hg.tiling hde (fun b hb => (hg.levels b hb).2) h64
    hg.distributed
  cases hb : balance e L (cube lmin periodic) level s with
  | none => rfl
  | some s' =>
    have h1 := (((C82_progress_partial hde h64 hL).2 mks s h).2.2 level).1 ⟨s', hb⟩
    have := separated_card hs hl h1
    omega

/-- **C82**, disagreement, a concrete case: four octants on two ranks, finest level 3 and the default of 3
compact levels (`DyabloTimeLoop.h` L291). The newer mesh keeps fewer levels together and goes on. -/
theorem C82_compaction_fails : ∃ s : Ranks 2 2, Reach 3 3 1 (fun _ => false) [] s ∧
    List.ofFn s.octs = [[⟨1, ![0, 0]⟩, ⟨1, ![1, 0]⟩], [⟨1, ![0, 1]⟩, ⟨1, ![1, 1]⟩]] ∧
    balance 3 3 (cube 1 fun _ => false) 3 s = none ∧
    (Partition.loadBalance 3 3 3 (List.ofFn s.octs)).isSome = true := by
  obtain ⟨hst, -⟩ := C82_progress_partial (P := 2) (d := 2) (e := 3) (L := 3) (lmin := 1)
    (periodic := fun _ => false) (by decide) (by decide) (by decide)
  obtain ⟨s, hs⟩ := hst.2 (by decide)
  have hr : Reach 3 3 1 (fun _ => false) [] s := Reach.start hs
  have hl : List.ofFn s.octs = [[⟨1, ![0, 0]⟩, ⟨1, ![1, 0]⟩], [⟨1, ![0, 1]⟩, ⟨1, ![1, 1]⟩]] := by
    have h1 : (start (P := 2) 3 3 1 (fun _ : Fin 2 => false)).map (fun s => List.ofFn s.octs) =
        some [[⟨1, ![0, 0]⟩, ⟨1, ![1, 0]⟩], [⟨1, ![0, 1]⟩, ⟨1, ![1, 1]⟩]] := by decide +kernel
    rw [hs] at h1
    exact Option.some.inj h1
  refine ⟨s, hr, hl, ?_, ?_⟩
  · exact C82_too_many_ranks_fails (by decide) (by decide) (by decide) (by decide) (by decide) hr
  · rw [hl]
    decide +kernel

/-- A case that meets the hypotheses: 4x4x4 octants on 8 ranks. All octants are
then asked to be refined. -/
example : ∃ s s' s2 : Ranks 3 8, Reach 3 4 2 (fun _ => true) [] s ∧
    adapt 3 4 (cube 2 fun _ => true) (fun _ => 1) s = some s' ∧
    balance 3 4 (cube 2 fun _ => true) 0 s' = some s2 ∧
    Tiling (cube 2 fun _ => true) s2.mesh ∧ s2.mesh = s'.mesh := by
  obtain ⟨hst, hpr⟩ := C82_progress_partial (P := 8) (d := 3) (e := 3) (L := 4) (lmin := 2)
    (periodic := fun _ => true) (by decide) (by decide) (by decide)
  obtain ⟨s, hs⟩ := hst.2 (by decide)
  have hr : Reach 3 4 2 (fun _ => true) [] s := Reach.start hs
  have hlev : ∀ a ∈ s.mesh, a.level = 2 := by
    obtain ⟨h1, -⟩ := start_spec (P := 8) (d := 3) (e := 3) (L := 4) (lmin := 2) (fun _ => true) (by decide)
      (by decide) (by decide)
    obtain ⟨s1, e1, -, h2⟩ := h1 (by decide)
    rw [hs] at e1
    cases e1
    exact fun a ha => ((h2 a).1 ha).1
  have ha : Asked (cube 2 fun _ => true) s.mesh fun _ => 1 :=
    ⟨fun _ _ => by norm_num, fun _ _ => le_refl _, fun _ _ h => absurd h (by norm_num), fun a ha => by
      rw [hlev a ha]; norm_num⟩
  have hm : ∀ a ∈ s.mesh, (a.level : ℤ) + 1 ≤ (4 : ℕ) := fun a ha => by rw [hlev a ha]; norm_num
  obtain ⟨s', e1⟩ := (hpr [] s hr).1 _ ha hm
  have hr' : Reach 3 4 2 (fun _ => true) [fun _ => 1] s' := Reach.adapt hr ha hm e1
  obtain ⟨s2, e2⟩ := (hpr _ s' hr').2.1
  refine ⟨s, s', s2, hr, e1, e2, ?_, ?_⟩
  · exact (C82_every_mesh_partial (by decide) (by decide) (by decide) (Reach.balance hr' 0 e2)).1
  · exact ((C82_steps (by decide) (by decide) (by decide) hr').2 0 e2).1

end Verif.RunOld
