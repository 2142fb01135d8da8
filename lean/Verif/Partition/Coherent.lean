import Verif.Partition.Props

/-!
# C17: when load balancing splits no block
-/

namespace Verif.Partition

open Verif.Octree Verif.Morton

variable {d : ℕ}

theorem truncKey_mono {e m k k' : ℕ} (h : k ≤ k') : truncKey e m k' ≤ truncKey e m k := by
  unfold truncKey
  rw [show e * k' = e * k + e * (k' - k) by rw [← Nat.mul_add]; congr 1; omega, pow_add, ← Nat.div_div_eq_div_mul,
    Nat.mul_comm (2 ^ (e * k)), ← Nat.mul_assoc]
  exact Nat.mul_le_mul_right _ (Nat.div_mul_le_self _ _)

/-- An aligned bound above the truncated key is above the key. -/
theorem lt_of_truncKey_lt {e m k k' z : ℕ} (h : k ≤ k') (hlt : truncKey e m k < z * 2 ^ (e * k')) :
    m < z * 2 ^ (e * k') := by
  have h2 : 2 ^ (e * k') = 2 ^ (e * (k' - k)) * 2 ^ (e * k) := by
    rw [← pow_add, ← Nat.mul_add]; congr 2; omega
  rw [h2, ← Nat.mul_assoc] at hlt ⊢
  unfold truncKey at hlt
  have h3 := Nat.lt_of_mul_lt_mul_right hlt
  exact (Nat.div_lt_iff_lt_mul (by positivity)).1 h3

/-- A leaf with its key in a block that has another leaf below it is below the block. -/
theorem anc_of_mem_block {G : Grid d} (hG : G.WF) {M : Finset (Oct d)} (hM : Tiling G M) {e L : ℕ} (hde : d ≤ e)
    (hL : ∀ b ∈ M, b.level ≤ L) {C a x : Oct d} (haM : a ∈ M) (hCa : Anc C a) (hxM : x ∈ M)
    (hx1 : okey e L C ≤ okey e L x) (hx2 : okey e L x < oend e L C) : Anc C x := by
  have hCL : C.level ≤ L := le_trans hCa.1 (hL a haM)
  have hpC : ∀ i, C.pos i < 2 ^ C.level := by
    intro i
    rw [← hCa.2 i, Nat.div_lt_iff_lt_mul (by positivity), ← pow_add,
      show C.level + (a.level - C.level) = a.level by have := hCa.1; omega]
    exact (hM.valid a haM).lt_pow hG i
  have hpx : ∀ i, x.pos i < 2 ^ x.level := fun i => (hM.valid x hxM).lt_pow hG i
  rcases Nat.lt_or_ge x.level C.level with hl | hl
  · exfalso
    have hn : ¬ Anc C x := fun h => by have := h.1; omega
    have heq : okey e L x ≤ okey e L C := by
      by_contra hc
      have := oend_le_of_okey_lt hde hpC hpx hCL (hL x hxM) hn (by omega)
      omega
    have hxC : Anc x C := anc_of_okey hde hpx hpC (le_of_lt hl) hCL heq
      (lt_of_le_of_lt hx1 (okey_lt_oend _ _ _))
    have := hM.eq_of_anc hG hxM haM (hxC.trans hCa)
    rw [this] at hl
    have := hCa.1
    omega
  · exact anc_of_okey hde hpC hpx hl (hL x hxM) hx1 hx2

/-- **C17.** If no block (`level` levels above the finest one) has more leaves than the share of a rank, no block is
split: the leaves below it are on one rank after load balancing. -/
theorem C17_no_group_split {G : Grid d} (hG : G.WF) {M : Finset (Oct d)} (hM : Tiling G M)
    {e L : ℕ} (hde : d ≤ e) (hL : ∀ b ∈ M, b.level ≤ L) (h64 : e * L < 64)
    {ls : List (List (Oct d))} (hd : Distributed e L M ls) (h0 : ls.getD 0 [] ≠ [])
    (hN : ls.length ≤ ls.flatten.length) (level : ℕ)
    (hsmall : ∀ C : Oct d, C.level + level = L → ∀ F ⊆ M, (∀ x ∈ F, Anc C x) → F.card ≤ M.card / ls.length) :
    ∃ ls' I, loadBalance e L level ls = some (ls', I) ∧
      ∀ (r r' : ℕ) (h : r < ls'.length) (h' : r' < ls'.length) (C : Oct d), C.level + level = L →
        ∀ a ∈ ls'[r], ∀ b ∈ ls'[r'], Anc C a → Anc C b → r = r' := by
  have hs := sorted_of_distributed hG hM hde hL h64 hd
  obtain ⟨J, I, raw, hJ0, hJP, hstr, hI, hIc, hraw, hlb⟩ := loadBalance_spec hs h0 hN level
  obtain ⟨ls', I', hlb', hlen', hflat, -, hcuts, hdesc⟩ :=
    C16_loadBalance_permutes hG hM hde hL h64 hd h0 hN level
  rw [hlb] at hlb'
  injection hlb' with hlb'
  injection hlb' with e1 e2
  subst e2
  refine ⟨ls', I, by rw [hlb, e1], ?_⟩
  have hmem : ∀ (s : ℕ) (h : s < ls'.length), ∀ o ∈ ls'[s], o ∈ M := by
    intro s h o ho
    rw [← hd.mem, ← hflat]
    exact List.mem_flatten.2 ⟨_, List.getElem_mem h, ho⟩
  have hPpos : 0 < ls.length := by
    rcases Nat.eq_zero_or_pos ls.length with h | h
    · rw [List.eq_nil_of_length_eq_zero h] at h0; simp at h0
    · exact h
  set g := ls.flatten with hg
  have hNpos : 0 < g.length := by omega
  have hcard : M.card = g.length := by
    have hnd : g.Nodup := hs.order.imp fun h he => by rw [he] at h; exact absurd h (lt_irrefl _)
    rw [← List.toFinset_card_of_nodup hnd]
    congr 1
    ext a
    rw [List.mem_toFinset]
    exact (hs.mem a).symm
  -- no cut lies inside a block
  have key : ∀ (q : ℕ), q + 1 < ls.length → ∀ (C a : Oct d), C.level + level = L → a ∈ M → Anc C a →
      okey e L C < I (q + 1) → I (q + 1) < oend e L C → False := by
    intro q hq C a hC haM hCa hcut1 hcut2
    have hCL : C.level ≤ L := by omega
    have hsub : L - C.level = level := by omega
    have hC1 : okey e L C = zkey d e C.level C.pos * 2 ^ (e * level) := by
      rw [okey_eq hCL, hsub]
    have hC2 : oend e L C = (zkey d e C.level C.pos + 1) * 2 ^ (e * level) := by
      rw [oend_eq hCL, hsub]
    have hk := adjust_spec e (newCut e level raw q) (raw (q + 1)) level
    have hI1 : I (q + 1) = truncKey e (raw (q + 1))
        (adjust e (newCut e level raw q) (raw (q + 1)) level) := hIc (q + 1) hq
    generalize adjust e (newCut e level raw q) (raw (q + 1)) level = k at *
    have hkl : k < level := by
      rcases Nat.lt_or_ge k level with h | h
      · exact h
      · exfalso
        have : k = level := le_antisymm hk.1 h
        rw [this] at hI1
        unfold truncKey at hI1
        rw [hI1, hC1] at hcut1
        rw [hI1, hC2] at hcut2
        have h4 := Nat.lt_of_mul_lt_mul_right hcut1
        have h5 := Nat.lt_of_mul_lt_mul_right hcut2
        omega
    have h6 := hk.2.2 hkl
    have hlow : okey e L C ≤ raw q := by
      obtain ⟨j, hj, hj1, hj2⟩ := newCut_spec hs level raw hraw q (by omega)
      have h7 : truncKey e (raw (q + 1)) level ≤ truncKey e (raw (q + 1)) (k + 1) := truncKey_mono (by omega)
      have h8 : okey e L C ≤ truncKey e (raw (q + 1)) level := by
        rw [hC1]
        unfold truncKey
        apply Nat.mul_le_mul_right
        rw [Nat.le_div_iff_mul_le (by positivity), ← hC1]
        have := truncKey_le e (raw (q + 1)) k
        omega
      have h9 : newCut e level raw q ≤ raw q := by
        rw [hraw q (by omega), hj1]
        have hx := evenIdx_lt (P := ls.length) hNpos (show q < ls.length by omega)
        rw [keyAt_of_lt hx]
        rcases Nat.eq_or_lt_of_le hj2 with h | h
        · simp only [h, le_refl]
        · exact le_of_lt ((hs.lt_iff hj hx).2 h)
      omega
    have hhigh : raw (q + 1) < oend e L C := by
      rw [hC2]
      rw [hI1, hC2] at hcut2
      exact lt_of_truncKey_lt (le_of_lt hkl) hcut2
    -- all leaves from one even cut to the next are below the block
    have hx0 := evenIdx_lt (P := ls.length) hNpos (show q < ls.length by omega)
    have hx1 := evenIdx_lt (P := ls.length) hNpos hq
    rw [hraw q (by omega), keyAt_of_lt hx0] at hlow
    rw [hraw (q + 1) hq, keyAt_of_lt hx1] at hhigh
    have hshare := (share_bounds g.length ls.length q hPpos).1
    change g.length / ls.length ≤ evenIdx g.length ls.length (q + 1) - evenIdx g.length ls.length q at hshare
    have hmono : evenIdx g.length ls.length q ≤ evenIdx g.length ls.length (q + 1) := evenIdx_mono (by omega)
    generalize evenIdx g.length ls.length q = i0 at *
    generalize evenIdx g.length ls.length (q + 1) = i1 at *
    have hnd : g.Nodup := hs.order.imp fun h he => by rw [he] at h; exact absurd h (lt_irrefl _)
    have hnd' : ((g.drop i0).take (i1 - i0 + 1)).Nodup :=
      hnd.sublist ((List.take_sublist _ _).trans (List.drop_sublist _ _))
    have hall : ∀ x ∈ (g.drop i0).take (i1 - i0 + 1), x ∈ M ∧ Anc C x := by
      intro x hx
      obtain ⟨n, hn, rfl⟩ := List.getElem_of_mem hx
      rw [List.length_take, List.length_drop] at hn
      rw [List.getElem_take, List.getElem_drop]
      have hi : i0 + n < g.length := by omega
      have hxM : g[i0 + n] ∈ M := (hs.mem _).1 (List.getElem_mem hi)
      refine ⟨hxM, anc_of_mem_block hG hM hde hL haM hCa hxM ?_ ?_⟩
      · rcases Nat.eq_zero_or_pos n with h | h
        · simpa [h] using hlow
        · exact le_trans hlow (le_of_lt ((hs.lt_iff hx0 hi).2 (by omega)))
      · rcases Nat.eq_or_lt_of_le (show i0 + n ≤ i1 by omega) with h | h
        · simpa [h] using hhigh
        · exact lt_trans ((hs.lt_iff hi hx1).2 h) hhigh
    have hF := hsmall C hC ((g.drop i0).take (i1 - i0 + 1)).toFinset
      (fun x hx => (hall x (List.mem_toFinset.1 hx)).1) (fun x hx => (hall x (List.mem_toFinset.1 hx)).2)
    rw [List.toFinset_card_of_nodup hnd', List.length_take, List.length_drop, hcard] at hF
    omega
  have hmonoI : ∀ m n, m ≤ n → n ≤ ls.length → I m ≤ I n := by
    intro m n hmn
    induction n, hmn using Nat.le_induction with
    | base => intro _; exact le_refl _
    | succ n _ ih => intro hn; exact le_trans (ih (by omega)) (hcuts.mono n (by omega))
  -- a lower rank cannot hold leaves of the block
  have lower : ∀ (r r' : ℕ) (h : r < ls'.length) (h' : r' < ls'.length) (C : Oct d), C.level + level = L →
        ∀ a ∈ ls'[r], ∀ b ∈ ls'[r'], Anc C a → Anc C b → ¬ r < r' := by
    intro r r' h h' C hC a ha b hb hCa hCb hlt
    have haM := hmem r h a ha
    have hbM := hmem r' h' b hb
    have hka := hCa.okey_le (e := e) hde (hL a haM)
    have hkb := hCb.okey_le (e := e) hde (hL b hbM)
    have h1 := hdesc r h a ha
    have h2 := hdesc r' h' b hb
    have h3 := hmonoI (r + 1) r' (by omega) (by omega)
    refine key r (by omega) C a hC haM hCa (lt_of_le_of_lt hka.1 h1.2) ?_
    have := okey_lt_oend e L b
    have := h2.1
    omega
  intro r r' h h' C hC a ha b hb hCa hCb
  rcases Nat.lt_trichotomy r r' with hlt | heq | hgt
  · exact absurd hlt (lower r r' h h' C hC a ha b hb hCa hCb)
  · exact heq
  · exact absurd hgt (lower r' r h' h C hC b hb a ha hCb hCa)

end Verif.Partition
