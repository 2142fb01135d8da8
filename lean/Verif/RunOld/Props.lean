import Verif.RunOld.Ghost
import Verif.RunOld.Balance
import Verif.RunOld.Spec
import Verif.Run.Props
import Verif.AdaptOld.Props

/-!
# C82: every mesh of a run with `AMRmesh_hashmap`
-/

namespace Verif.RunOld

open Verif.Octree Verif.Adapt Verif.Partition Verif.Run Verif.AdaptOld

variable {d P : ℕ}

/-- What load balancing needs. -/
structure Ready (e L : ℕ) (G : Grid d) (octs : Fin P → List (Oct d)) : Prop where
  tiling : Tiling G (leaves octs)
  balanced : Balanced G (leaves octs)
  levels : ∀ o ∈ leaves octs, G.lmin ≤ o.level ∧ o.level ≤ L
  distributed : Distributed e L (leaves octs) (List.ofFn octs)
  first : (List.ofFn octs).getD 0 [] ≠ []

theorem Ready.of_good [NeZero P] {e L : ℕ} {G : Grid d} {s : Ranks d P} (h : Good e L G s) :
    Ready e L G s.octs where
  tiling := h.tiling
  balanced := h.balanced
  levels := h.levels
  distributed := h.distributed
  first := by
    rw [getD_ofFn, dif_pos (pos_of_neZero P)]
    exact h.nonempty _

theorem separated_iff {e L : ℕ} {G : Grid d} {M : Finset (Oct d)} {g : List (Oct d)}
    (hs : Sorted e L (2 ^ 64 - 1) G M g) {J I : ℕ → ℕ} {level : ℕ}
    (hJP : J P = g.length) (hJb : ∀ r < P, J r < g.length)
    (hI : ∀ r ≤ P, I r = keyAt e L (2 ^ 64 - 1) g (J r))
    (hcut : ∀ r < P, I r = truncKey e (keyAt e L (2 ^ 64 - 1) g (evenIdx g.length P r)) level) :
    Separated e L level P g ↔ ∀ r < P, J r < J (r + 1) := by
  have hN := hs.first.1
  have hkey : ∀ r, ∀ h : r < P, ∃ h' : g.length * r / P < g.length,
      I r = okey e L (g[g.length * r / P]'h') / 2 ^ (e * level) * 2 ^ (e * level) := by
    intro r h
    have h1 := evenIdx_lt hN h
    refine ⟨h1, ?_⟩
    rw [hcut r h, keyAt_of_lt h1]
    rfl
  have hmono : ∀ r, r + 1 < P → I r ≤ I (r + 1) := by
    intro r h
    rw [hcut r (by omega), hcut (r + 1) h]
    exact truncKey_mono e level (hs.keyAt_mono (evenIdx_mono (by omega)))
  have hJI : ∀ r, r + 1 < P → (J r < J (r + 1) ↔ I r < I (r + 1)) := by
    intro r h
    rw [hI r (by omega), hI (r + 1) (by omega), keyAt_of_lt (hJb r (by omega)),
      hs.lt_keyAt_iff (hJb r (by omega))]
  constructor
  · intro h r hr
    rcases Nat.lt_or_ge (r + 1) P with h1 | h1
    · rw [hJI r h1]
      obtain ⟨ha, hka⟩ := hkey r hr
      obtain ⟨hb, hkb⟩ := hkey (r + 1) h1
      have h2 := h r h1 _ _ (List.getElem?_eq_getElem ha) (List.getElem?_eq_getElem hb)
      refine lt_of_le_of_ne (hmono r h1) fun h3 => h2 ?_
      rw [hka, hkb] at h3
      exact Nat.eq_of_mul_eq_mul_right (by positivity) h3
    · rw [show r + 1 = P by omega, hJP]
      exact hJb r hr
  · intro h r hr a b ha hb hk
    obtain ⟨ha', hka⟩ := hkey r (by omega)
    obtain ⟨hb', hkb⟩ := hkey (r + 1) hr
    rw [List.getElem?_eq_getElem ha'] at ha
    rw [List.getElem?_eq_getElem hb'] at hb
    cases ha
    cases hb
    have := (hJI r hr).1 (h r (by omega))
    rw [hka, hkb, hk] at this
    exact lt_irrefl _ this

/-- Load balancing: it succeeds exactly if the even cuts are in different blocks, and then the mesh is
the same and the new state is good. -/
theorem balance_spec [NeZero P] {e L : ℕ} {G : Grid d} (hG : G.WF) (hde : d ≤ e) (h64 : e * L < 64)
    {s : Ranks d P} (h : Ready e L G s.octs) (level : ℕ) :
    (¬ Separated e L level P (List.ofFn s.octs).flatten → balance e L G level s = none) ∧
    (Separated e L level P (List.ofFn s.octs).flatten →
      ∃ s', balance e L G level s = some s' ∧ Good e L G s' ∧ s'.mesh = s.mesh ∧
        (List.ofFn s'.octs).flatten = (List.ofFn s.octs).flatten) := by
  have hs := sorted_of_distributed hG h.tiling hde (fun b hb => (h.levels b hb).2) h64 h.distributed
  obtain ⟨J, I, hJ0, hJP, hJm, hJb, hI, hcut, hyes, hno⟩ := loadBalance_spec hs h.first level
  have hP := pos_of_neZero P
  rw [List.length_ofFn] at hJP hJm hJb hI hcut hyes hno
  have hsep := separated_iff hs hJP hJb hI hcut
  refine ⟨fun hn => ?_, fun hy => ?_⟩
  · unfold balance
    rw [hno (fun h1 => hn (hsep.2 h1))]
    rfl
  have hstr := hsep.1 hy
  have e1 := hyes hstr
  set g := (List.ofFn s.octs).flatten with hg
  obtain ⟨e3, hlen⟩ := balanced_lists g J P hJ0 hJP hJm
  set ls : List (List (Oct d)) := (List.range P).map fun s => (g.drop (J s)).take (J (s + 1) - J s) with hls
  have hlsl : ls.length = P := by simp [hls]
  set new : Fin P → List (Oct d) := fun i => ls.getD i [] with hnew
  have hofn : List.ofFn new = ls := by
    apply List.ext_getElem (by simp [hlsl])
    intro i h1 h2
    rw [getElem_ofFn']
    simp [hnew, h2]
  have hleaves : leaves new = s.mesh := by
    unfold leaves Ranks.mesh leaves
    rw [hofn, e3]
  have hnewr : ∀ r : Fin P, new r = (g.drop (J r)).take (J (r + 1) - J r) := by
    intro r
    show ls.getD r [] = _
    rw [List.getD_eq_getElem _ _ (by rw [hlsl]; exact r.2)]
    simp [hls]
  have hc : Cuts e L (leaves new) P I := by
    rw [hleaves]
    exact hs.cuts hJ0 hJm hJP hI
  have hd : Describes e L (List.ofFn new) I := by
    intro r hr a ha
    have hr' : r < P := by simpa using hr
    rw [getElem_ofFn', hnewr] at ha
    obtain ⟨j, hj, rfl⟩ := List.mem_iff_getElem.1 ha
    have hj' := hj
    simp only at hj'
    rw [hlen r hr'] at hj'
    have hb : J r + j < g.length := by
      simp only [List.length_take, List.length_drop] at hj
      omega
    have : ((g.drop (J r)).take (J (r + 1) - J r))[j] = g[J r + j] := by
      rw [List.getElem_take, List.getElem_drop]
    rw [this, hs.owns_iff hI hr' hb]
    omega
  have hL : ∀ b ∈ leaves new, b.level ≤ L := by
    rw [hleaves]; exact fun b hb => (h.levels b hb).2
  have hIP : 2 ^ (e * L) ≤ I P := by
    rw [hI P (le_refl _), hJP, keyAt_of_ge (le_refl _)]
    exact two_pow_lt h64
  refine ⟨⟨new, discovered e L G I new, allFaces⟩, by simp [balance, e1, hnew], ?_, hleaves, by
    show (List.ofFn new).flatten = g
    rw [hofn, e3]⟩
  refine ⟨?_, ?_, ?_, ?_, ?_, ?_, fun r b _ _ _ _ _ _ f _ => mem_allFaces r b f⟩
  · show Tiling G (leaves new); rw [hleaves]; exact h.tiling
  · show Balanced G (leaves new); rw [hleaves]; exact h.balanced
  · show ∀ o ∈ leaves new, _; rw [hleaves]; exact h.levels
  · show Distributed e L (leaves new) (List.ofFn new)
    rw [hleaves, hofn]
    exact ⟨fun a => by rw [e3]; exact h.distributed.mem a, by rw [e3]; exact h.distributed.order⟩
  · intro r
    show new r ≠ []
    rw [hnewr]
    apply List.ne_nil_of_length_pos
    rw [hlen r r.2]
    have := hstr r r.2
    omega
  · intro r b
    show b ∈ discovered e L G I new r ↔ _
    rw [discovered_eq hde hc.mono hIP G new hL r]
    exact discovered_iff hG (by rw [hleaves]; exact h.tiling) (by rw [hleaves]; exact h.balanced) hde
      hL hc hd r b

/-- Without compaction the cuts are different if there are at least as many leaves as ranks. -/
theorem separated_zero {e L : ℕ} (hP : 0 < P) {g : List (Oct d)}
    (hs : g.Pairwise fun a b => okey e L a < okey e L b) (h : P ≤ g.length) : Separated e L 0 P g := by
  intro r hr a b ha hb hk
  simp only [Nat.mul_zero, pow_zero, Nat.div_one] at hk
  have h1 := evenIdx_strict (i := r) hP h
  unfold evenIdx at h1
  obtain ⟨ha1, rfl⟩ := List.getElem?_eq_some_iff.1 ha
  obtain ⟨hb1, rfl⟩ := List.getElem?_eq_some_iff.1 hb
  have := List.pairwise_iff_getElem.1 hs _ _ ha1 hb1 h1
  omega

/-- No rank loses all its octants in `adapt`: what is coarsened is on one rank. -/
theorem newLeaves_ne_nil [NeZero P] {e L : ℕ} {G : Grid d} {s : Ranks d P} (h : Good e L G s)
    {f : Oct d → ℤ} (hc : ∀ a ∈ s.mesh, f a = -1 → ∀ b, Sibling b a → b ∈ s.mesh ∧ f b = -1 ∧
      owner s.octs b = owner s.octs a) (hv : ∀ a ∈ s.mesh, f a = -1 ∨ f a = 0 ∨ f a = 1) (r : Fin P) :
    newLeaves f (s.octs r) ≠ [] := by
  obtain ⟨a, t, hat⟩ := List.exists_cons_of_ne_nil (h.nonempty r)
  have ha : a ∈ s.octs r := by rw [hat]; simp
  have haM : a ∈ s.mesh := (mem_leaves _ _).2 ⟨r, ha⟩
  suffices hx : ∃ b ∈ s.octs r, written (f b) b ≠ [] by
    obtain ⟨b, hb, hw⟩ := hx
    intro hn
    unfold newLeaves at hn
    rw [List.flatMap_eq_nil_iff] at hn
    exact hw (hn b hb)
  rcases hv a haM with h1 | h1 | h1
  · obtain ⟨h2, h3, h4⟩ := hc a haM h1 _ (Adapt.firstSib_sibling a)
    refine ⟨Adapt.firstSib a, ?_, ?_⟩
    · have h5 := owner_mem s.octs h2
      rwa [h4, h.rank_unique (owner_mem s.octs haM) ha] at h5
    · rw [h3]
      unfold written
      rw [if_neg (by omega), if_neg (by omega), if_pos rfl, if_pos fun i => by simp [Adapt.firstSib]]
      simp
  · exact ⟨a, ha, by rw [h1]; unfold written; simp⟩
  · refine ⟨a, ha, ?_⟩
    rw [h1]
    unfold written children
    simp

/-- Adaptation always succeeds and gives a good state. -/
theorem adapt_spec [NeZero P] {e L : ℕ} {G : Grid d} (hG : G.WF) (hde : d ≤ e) (h64 : e * L < 64)
    {s : Ranks d P} (h : Good e L G s) {mk : Oct d → ℤ} (hr : Asked G s.mesh mk)
    (hmax : ∀ a ∈ s.mesh, (a.level : ℤ) + mk a ≤ L) :
    ∃ f s', adaptMarkers G s.dist s.mesh (2 * s.mesh.card + 1) (2 * s.mesh.card + 1) mk = some f ∧
      adapt e L G mk s = some s' ∧ Good e L G s' ∧
      (∀ r, s'.octs r = newLeaves f (s.octs r)) ∧ s'.mesh = newMesh f s.mesh ∧
      (∀ a ∈ s.mesh, mk a = 1 → f a = 1) ∧ (∀ a ∈ s.mesh, f a = -1 → mk a = -1) := by
  obtain ⟨f, e1, hf1, hf2, -, hv, htil, hbal, hlev, -⟩ := C80_adapt_partial hG h.tiling h.balanced s.dist
    h.ghostComplete mk hr _ _ (Nat.lt_succ_self _) (Nat.lt_succ_self _)
  have hlev := hlev L (fun a ha => (h.levels a ha).2) hmax
  set new : Fin P → List (Oct d) := fun r => newLeaves f (s.octs r) with hnew
  have hmesh : leaves new = newMesh f s.mesh := leaves_newLeaves f s.octs
  have hne : ∀ r, new r ≠ [] := newLeaves_ne_nil h
    (fun a ha h1 b hb => (hf2 a ha h1).2 b hb) hv
  have hdist : Distributed e L (leaves new) (List.ofFn new) := by
    refine ⟨fun a => by rw [← List.mem_toFinset]; rfl, ?_⟩
    rw [ofFn_newLeaves]
    refine newLeaves_sorted hde f _ (fun a ha => ?_) ?_
    · have haM : a ∈ s.mesh := List.mem_toFinset.2 ha
      refine ⟨(h.levels a haM).2, fun h1 => ?_, fun h1 => ?_⟩
      · have hmem : (⟨a.level + 1, fun i => a.pos i * 2⟩ : Oct d) ∈ newMesh f s.mesh := by
          unfold newMesh
          rw [Finset.mem_biUnion]
          refine ⟨a, haM, ?_⟩
          rw [h1, List.mem_toFinset]
          unfold written
          rw [if_pos rfl, mem_children]
          exact ⟨rfl, fun i => by simp⟩
        exact (hlev _ hmem).2
      · have := hr.coarsest a haM (hf2 a haM h1).1
        omega
    · exact zOrdered_of_sorted hG h.tiling hde (fun a ha => (h.levels a ha).2)
        (fun a ha => (h.distributed.mem a).1 ha) h.distributed.order
  have hL : ∀ b ∈ leaves new, b.level ≤ L := by rw [hmesh]; exact fun b hb => (hlev b hb).2
  have hs := sorted_of_distributed hG (by rw [hmesh]; exact htil) hde hL h64 hdist
  have hP := pos_of_neZero P
  have h0 : (List.ofFn new).getD 0 [] ≠ [] := by rw [getD_ofFn, dif_pos hP]; exact hne _
  have hI : ∀ r ≤ P, oldIntervals e L (List.ofFn new) r =
      keyAt e L (2 ^ 64 - 1) (List.ofFn new).flatten (firstIdx (List.ofFn new) r) := fun r hr =>
    oldIntervals_eq hs h0 (by simpa using hr)
  have hFP : firstIdx (List.ofFn new) P = (List.ofFn new).flatten.length := by
    have := firstIdx_length (List.ofFn new)
    rwa [List.length_ofFn] at this
  have hc : Cuts e L (leaves new) P (oldIntervals e L (List.ofFn new)) :=
    hs.cuts (firstIdx_zero _) (fun r hr => firstIdx_le _ (Nat.le_succ r) (by rw [List.length_ofFn]; exact hr)) hFP hI
  have hd : Describes e L (List.ofFn new) (oldIntervals e L (List.ofFn new)) := by
    intro r hr a ha
    have hr' : r < P := by simpa using hr
    obtain ⟨j, hj, rfl⟩ := List.mem_iff_getElem.1 ha
    have hgd : (List.ofFn new).getD r [] = (List.ofFn new)[r] := List.getD_eq_getElem _ _ hr
    have h1 := getElem_flatten (List.ofFn new) hr (j := j) (by rw [hgd]; exact hj)
    have hb : firstIdx (List.ofFn new) r + j < (List.ofFn new).flatten.length := by
      have := firstIdx_le_length (List.ofFn new) (by omega : r + 1 ≤ (List.ofFn new).length)
      rw [firstIdx_succ _ hr, hgd] at this
      omega
    rw [hgd, List.getElem?_eq_getElem hb, List.getElem?_eq_getElem hj] at h1
    rw [← Option.some.inj h1, hs.owns_iff hI hr' hb, firstIdx_succ _ hr, hgd]
    omega
  have hIP : 2 ^ (e * L) ≤ oldIntervals e L (List.ofFn new) P := by
    rw [hI P (le_refl _), hFP, keyAt_of_ge (le_refl _)]
    exact two_pow_lt h64
  refine ⟨f, ⟨new, discovered e L G (oldIntervals e L (List.ofFn new)) new, allFaces⟩, e1, ?_,
    ⟨?_, ?_, ?_, hdist, hne, ?_, fun r b _ _ _ _ _ _ f _ => mem_allFaces r b f⟩, fun r => rfl, hmesh, hf1, fun a ha h1 => (hf2 a ha h1).1⟩
  · unfold adapt
    rw [e1, Option.bind_some]
    show (currentIntervals e L (List.ofFn new)).map _ = _
    rw [currentIntervals_eq hs h0]
    rfl
  · show Tiling G (leaves new); rw [hmesh]; exact htil
  · show Balanced G (leaves new); rw [hmesh]; exact hbal
  · show ∀ o ∈ leaves new, _; rw [hmesh]; exact hlev
  · intro r b
    show b ∈ discovered e L G _ new r ↔ _
    rw [discovered_eq hde hc.mono hIP G new hL r]
    exact discovered_iff hG (by rw [hmesh]; exact htil) (by rw [hmesh]; exact hbal) hde hL hc hd r b

/-! ### The constructor -/

theorem refineAll_eq (l : List (Oct d)) : refineAll l = newLeaves (fun _ => 1) l := by
  unfold refineAll newLeaves written
  simp

theorem cube_wf (k : ℕ) (periodic : Fin d → Bool) : (cube k periodic).WF where
  pos := fun _ => by simp [cube]
  le := fun _ => le_refl _

theorem uniform_spec {e L : ℕ} (hde : d ≤ e) : ∀ k ≤ L,
    (∀ o : Oct d, o ∈ refineAll^[k] [⟨0, fun _ => 0⟩] ↔ o.level = k ∧ ∀ i, o.pos i < 2 ^ k) ∧
    ((refineAll^[k] [(⟨0, fun _ => 0⟩ : Oct d)]).Pairwise fun a b => okey e L a < okey e L b) ∧
    (refineAll^[k] [(⟨0, fun _ => 0⟩ : Oct d)]).length = 2 ^ (d * k) := by
  intro k
  induction k with
  | zero =>
    intro _
    refine ⟨fun o => ?_, by simp, by simp⟩
    rw [Function.iterate_zero, id_eq, List.mem_singleton]
    constructor
    · rintro rfl; simp
    · rintro ⟨h1, h2⟩
      exact Oct.ext' h1 fun i => by have := h2 i; simp at this ⊢; omega
  | succ k ih =>
    intro hk
    obtain ⟨h1, h2, h3⟩ := ih (by omega)
    rw [Function.iterate_succ_apply']
    set l : List (Oct d) := refineAll^[k] [⟨0, fun _ => 0⟩] with hl
    refine ⟨fun o => ?_, ?_, ?_⟩
    · unfold refineAll
      rw [List.mem_flatMap]
      constructor
      · rintro ⟨a, ha, hc⟩
        rw [mem_children] at hc
        obtain ⟨ha1, ha2⟩ := (h1 a).1 ha
        refine ⟨by omega, fun i => ?_⟩
        have := ha2 i
        have := hc.2 i
        rw [pow_succ]
        omega
      · rintro ⟨ho1, ho2⟩
        refine ⟨⟨k, fun i => o.pos i / 2⟩, (h1 _).2 ⟨rfl, fun i => ?_⟩, (mem_children _ _).2 ⟨ho1, fun i => rfl⟩⟩
        have := ho2 i
        rw [pow_succ] at this
        simp only
        omega
    · rw [refineAll_eq]
      refine newLeaves_sorted hde _ _ (fun a ha => ?_) ?_
      · have := ((h1 a).1 ha).1
        exact ⟨by omega, fun _ => by omega, fun h => absurd h (by norm_num)⟩
      · have hM : ∀ o, o ∈ l.toFinset ↔ o.level = (cube (d := d) k fun _ => true).lmin ∧
            ∀ i, o.pos i < (cube (d := d) k fun _ => true).coarse i := fun o => by
          rw [List.mem_toFinset]; exact h1 o
        refine zOrdered_of_sorted (cube_wf k fun _ => true) (uniform_tiling (cube_wf k _) hM).1 hde
          (fun a ha => ?_) (fun a ha => List.mem_toFinset.2 ha) h2
        have := ((hM a).1 ha).1
        simp only [cube] at this
        omega
    · unfold refineAll
      rw [List.length_flatMap]
      have : (l.map fun a => (children a).length) = l.map fun _ => 2 ^ d :=
        List.map_congr_left fun a _ => by simp [children]
      rw [this, List.map_const', List.sum_replicate, h3, smul_eq_mul, ← pow_add, Nat.mul_succ]

theorem start_lists [NeZero P] (l : List (Oct d)) :
    (List.ofFn fun r : Fin P => if (r : ℕ) = 0 then l else []).flatten = l := by
  obtain ⟨n, rfl⟩ := Nat.exists_eq_succ_of_ne_zero (NeZero.ne P)
  rw [List.ofFn_succ]
  simp

/-- The constructor succeeds exactly if there are at least as many octants as ranks. -/
theorem start_spec [NeZero P] {e L lmin : ℕ} (periodic : Fin d → Bool) (hde : d ≤ e)
    (h64 : e * L < 64) (hL : lmin ≤ L) :
    (P ≤ 2 ^ (d * lmin) → ∃ s : Ranks d P, start e L lmin periodic = some s ∧
      Good e L (cube lmin periodic) s ∧
      ∀ o, o ∈ s.mesh ↔ o.level = lmin ∧ ∀ i, o.pos i < 2 ^ lmin) ∧
    (∀ s : Ranks d P, start e L lmin periodic = some s → P ≤ 2 ^ (d * lmin)) := by
  obtain ⟨h1, h2, h3⟩ := uniform_spec (d := d) (L := L) hde lmin hL
  set l : List (Oct d) := refineAll^[lmin] [⟨0, fun _ => 0⟩] with hl
  set octs : Fin P → List (Oct d) := fun r => if (r : ℕ) = 0 then l else [] with hocts
  have hflat : (List.ofFn octs).flatten = l := start_lists l
  have hmem : ∀ o, o ∈ leaves octs ↔ o.level = lmin ∧ ∀ i, o.pos i < 2 ^ lmin := fun o => by
    unfold leaves
    rw [hflat, List.mem_toFinset]
    exact h1 o
  have hG := cube_wf lmin periodic
  have hP := pos_of_neZero P
  obtain ⟨ht, hb⟩ := uniform_tiling hG (M := leaves octs) hmem
  have hready : Ready e L (cube lmin periodic) octs := by
    refine ⟨ht, hb, fun o ho => ?_, ⟨fun a => ?_, ?_⟩, ?_⟩
    · have := ((hmem o).1 ho).1
      simp only [cube]
      omega
    · unfold leaves; rw [List.mem_toFinset]
    · rw [hflat]; exact h2
    · rw [getD_ofFn, dif_pos hP]
      show (if (0 : ℕ) = 0 then l else []) ≠ []
      rw [if_pos rfl]
      apply List.ne_nil_of_length_pos
      rw [h3]
      positivity
  obtain ⟨hno, hyes⟩ := balance_spec hG hde h64 (s := ⟨octs, fun _ => ∅, allFaces⟩) hready 0
  refine ⟨fun hle => ?_, fun s hs => ?_⟩
  · obtain ⟨s, e1, h4, h5, -⟩ := hyes (by
      show Separated e L 0 P (List.ofFn octs).flatten
      rw [hflat]
      exact separated_zero hP h2 (by rw [h3]; exact hle))
    exact ⟨s, e1, h4, fun o => by rw [h5]; exact hmem o⟩
  · by_cases hsep : Separated e L 0 P (List.ofFn octs).flatten
    · obtain ⟨s', e1, h4, -, h6⟩ := hyes hsep
      have h7 := length_le_of_nonempty (List.ofFn s'.octs) fun x hx => by
        rw [List.mem_ofFn] at hx
        obtain ⟨r, rfl⟩ := hx
        exact h4.nonempty r
      rw [h6] at h7
      have h8 : (List.ofFn octs).flatten.length = 2 ^ (d * lmin) := by rw [hflat, h3]
      rw [List.length_ofFn] at h7
      exact h7.trans (le_of_eq h8)
    · have h9 := hno hsep
      have : start e L lmin periodic = (none : Option (Ranks d P)) := h9
      rw [this] at hs
      cases hs

/-! ### Runs -/

/-- The states of a run. The list has the requested markers, the last ones first. -/
inductive Reach [NeZero P] (e L lmin : ℕ) (periodic : Fin d → Bool) : List (Oct d → ℤ) → Ranks d P → Prop
  | start {s : Ranks d P} (h : start e L lmin periodic = some s) : Reach e L lmin periodic [] s
  | adapt {mks : List (Oct d → ℤ)} {s s' : Ranks d P} (h : Reach e L lmin periodic mks s) {mk : Oct d → ℤ}
      (hr : Asked (cube lmin periodic) s.mesh mk) (hmax : ∀ a ∈ s.mesh, (a.level : ℤ) + mk a ≤ L)
      (h' : adapt e L (cube lmin periodic) mk s = some s') : Reach e L lmin periodic (mk :: mks) s'
  | balance {mks : List (Oct d → ℤ)} {s s' : Ranks d P} (h : Reach e L lmin periodic mks s) (level : ℕ)
      (h' : balance e L (cube lmin periodic) level s = some s') : Reach e L lmin periodic mks s'

section
variable [NeZero P] {e L lmin : ℕ} {periodic : Fin d → Bool} (hde : d ≤ e) (h64 : e * L < 64)
  (hL : lmin ≤ L)
include hde h64 hL

theorem reach_good {mks : List (Oct d → ℤ)} {s : Ranks d P} (h : Reach e L lmin periodic mks s) :
    Good e L (cube lmin periodic) s := by
  have hG := cube_wf (d := d) lmin periodic
  induction h with
  | start h =>
    obtain ⟨h1, h2⟩ := start_spec (P := P) (d := d) periodic hde h64 hL
    obtain ⟨s', e1, h3, -⟩ := h1 (h2 _ h)
    rw [h] at e1
    cases e1
    exact h3
  | adapt h hr hmax h' ih =>
    obtain ⟨f, s', -, e1, h4, -⟩ := adapt_spec hG hde h64 ih hr hmax
    rw [h'] at e1
    cases e1
    exact h4
  | @balance mks s s' h level h' ih =>
    obtain ⟨h1, h2⟩ := balance_spec hG hde h64 (Ready.of_good ih) level
    by_cases hsep : Separated e L level P (List.ofFn s.octs).flatten
    · obtain ⟨s2, e1, h3, -⟩ := h2 hsep
      rw [h'] at e1
      cases e1
      exact h3
    · rw [h1 hsep] at h'
      cases h'

/-- **C82.** In every state of a run with the older mesh on any number of ranks: the leaves of all ranks
tile the cube, touching leaves differ by at most one level, levels are in the configured range; the
concatenated storage of the ranks is the list of leaves in Z-order, every rank has octants; the ghosts
of a rank are exactly the leaves of other ranks that touch one of its own. -/
theorem C82_every_mesh_partial {mks : List (Oct d → ℤ)} {s : Ranks d P}
    (h : Reach e L lmin periodic mks s) :
    Tiling (cube lmin periodic) s.mesh ∧ Balanced (cube lmin periodic) s.mesh ∧
      (∀ o ∈ s.mesh, lmin ≤ o.level ∧ o.level ≤ L) ∧
      Distributed e L s.mesh (List.ofFn s.octs) ∧ (∀ r, s.octs r ≠ []) ∧
      ∀ r b, b ∈ s.ghost r ↔ b ∈ s.mesh ∧ b ∉ s.octs r ∧ ∃ a ∈ s.octs r, Touch (cube lmin periodic) a b := by
  have hg := reach_good hde h64 hL h
  refine ⟨hg.tiling, hg.balanced, hg.levels, hg.distributed, hg.nonempty, fun r b => ?_⟩
  rw [hg.ghosts]
  refine and_congr_right fun hb => and_congr_left fun _ => not_congr ⟨fun h1 => ?_, fun h1 => ?_⟩
  · rw [← h1]; exact owner_mem s.octs hb
  · exact hg.rank_unique (owner_mem s.octs hb) h1

/-- **C82.** Where a run can stop. The constructor succeeds exactly if there are at least as many coarse
octants as ranks; `adapt` always succeeds (no rank loses all its octants); load balancing succeeds
exactly if the octants that begin the ranks in an even distribution are in different blocks, in
particular without compaction. -/
theorem C82_progress_partial : ((∃ s : Ranks d P, start e L lmin periodic = some s) ↔ P ≤ 2 ^ (d * lmin)) ∧
    ∀ (mks : List (Oct d → ℤ)) (s : Ranks d P), Reach e L lmin periodic mks s →
      (∀ mk, Asked (cube lmin periodic) s.mesh mk → (∀ a ∈ s.mesh, (a.level : ℤ) + mk a ≤ L) →
        ∃ s', adapt e L (cube lmin periodic) mk s = some s') ∧
      (∃ s', balance e L (cube lmin periodic) 0 s = some s') ∧
      ∀ level, (∃ s', balance e L (cube lmin periodic) level s = some s') ↔
        Separated e L level P (List.ofFn s.octs).flatten := by
  have hG := cube_wf (d := d) lmin periodic
  refine ⟨?_, fun mks s h => ?_⟩
  · obtain ⟨h1, h2⟩ := start_spec (P := P) (d := d) periodic hde h64 hL
    refine ⟨fun ⟨s, hs⟩ => h2 s hs, fun h => ?_⟩
    obtain ⟨s, hs, -⟩ := h1 h
    exact ⟨s, hs⟩
  have hg := reach_good hde h64 hL h
  have hb : ∀ level, (∃ s', balance e L (cube lmin periodic) level s = some s') ↔
      Separated e L level P (List.ofFn s.octs).flatten := by
    intro level
    obtain ⟨h1, h2⟩ := balance_spec hG hde h64 (Ready.of_good hg) level
    refine ⟨fun ⟨s', hs'⟩ => ?_, fun hsep => ?_⟩
    · by_contra hn
      rw [h1 hn] at hs'
      cases hs'
    · obtain ⟨s', e1, -⟩ := h2 hsep
      exact ⟨s', e1⟩
  refine ⟨fun mk hr hmax => ?_, ?_, hb⟩
  · obtain ⟨f, s', -, e1, -⟩ := adapt_spec hG hde h64 hg hr hmax
    exact ⟨s', e1⟩
  · refine (hb 0).2 (separated_zero (pos_of_neZero P) hg.distributed.order ?_)
    have := length_le_of_nonempty (List.ofFn s.octs) fun x hx => by
      rw [List.mem_ofFn] at hx
      obtain ⟨r, rfl⟩ := hx
      exact hg.nonempty r
    rwa [List.length_ofFn] at this

/-- **C82.** One step of a run. `adapt` refines every leaf that was asked to and coarsens only leaves that
were asked to, in place on their ranks; load balancing keeps the mesh. -/
theorem C82_steps {mks : List (Oct d → ℤ)} {s s' : Ranks d P} (h : Reach e L lmin periodic mks s) :
    (∀ mk, Asked (cube lmin periodic) s.mesh mk → (∀ a ∈ s.mesh, (a.level : ℤ) + mk a ≤ L) →
      adapt e L (cube lmin periodic) mk s = some s' →
      ∃ f, (∀ a ∈ s.mesh, mk a = 1 → f a = 1) ∧ (∀ a ∈ s.mesh, f a = -1 → mk a = -1) ∧
        (∀ r, s'.octs r = newLeaves f (s.octs r)) ∧ s'.mesh = newMesh f s.mesh) ∧
    (∀ level, balance e L (cube lmin periodic) level s = some s' → s'.mesh = s.mesh ∧
      (List.ofFn s'.octs).flatten = (List.ofFn s.octs).flatten) := by
  have hG := cube_wf (d := d) lmin periodic
  have hg := reach_good hde h64 hL h
  refine ⟨fun mk hr hmax hs => ?_, fun level hs => ?_⟩
  · obtain ⟨f, s2, -, e1, -, h2, h3, h4, h5⟩ := adapt_spec hG hde h64 hg hr hmax
    rw [hs] at e1
    cases e1
    exact ⟨f, h4, h5, h2, h3⟩
  · obtain ⟨h1, h2⟩ := balance_spec hG hde h64 (Ready.of_good hg) level
    by_cases hsep : Separated e L level P (List.ofFn s.octs).flatten
    · obtain ⟨s2, e1, -, h3, h4⟩ := h2 hsep
      rw [hs] at e1
      cases e1
      exact ⟨h3, h4⟩
    · rw [h1 hsep] at hs
      cases hs

end

/-- **C82.** On one rank both meshes give the same run. -/
theorem C82_one_rank_same_mesh {e L lmin : ℕ} {periodic : Fin d → Bool} (hde : d ≤ e) (h64 : e * L < 64)
    (hL : lmin ≤ L) {mks : List (Oct d → ℤ)} {s : Ranks d 1} (h : Reach e L lmin periodic mks s) :
    MeshRun (cube lmin periodic) mks s.mesh := by
  have hG := cube_wf (d := d) lmin periodic
  induction h with
  | start h =>
    obtain ⟨h1, h2⟩ := start_spec (P := 1) (d := d) periodic hde h64 hL
    obtain ⟨s', e1, -, h3⟩ := h1 (h2 _ h)
    rw [h] at e1
    cases e1
    exact MeshRun.start h3
  | @adapt mks s s' h mk hr hmax h' ih =>
    have hg := reach_good hde h64 hL h
    obtain ⟨f, s2, e0, e1, -, -, h3, -⟩ := adapt_spec hG hde h64 hg hr hmax
    rw [h'] at e1
    cases e1
    obtain ⟨f', e2, hlc⟩ := C80_one_rank_least hG hg.tiling hg.balanced s.dist mk (fun r => by
      ext b
      constructor
      · intro hb
        exact absurd (Subsingleton.elim _ _) ((hg.ghosts r b).1 hb).2.1
      · intro hb; simp at hb) hr (2 * s.mesh.card + 1) (2 * s.mesh.card + 1)
      (Nat.lt_succ_self _) (Nat.lt_succ_self _)
    rw [e0] at e2
    cases e2
    rw [h3]
    exact MeshRun.adapt ih hlc
  | @balance mks s s' h level h' ih =>
    have := ((C82_steps hde h64 hL h).2 level h').1
    rw [this]
    exact ih

end Verif.RunOld
