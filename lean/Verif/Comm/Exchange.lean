import Verif.Comm.View

/-!
# What `exchange_ghosts` computes
-/

namespace Verif.Comm

variable {α : Type}

/-- A communicator realises the send lists `send` on `P` ranks. -/
structure Realises (C : Comm) (P : ℕ) (send : ℕ → ℕ → List ℕ) : Prop where
  sz : ∀ s < P, ∀ r < P, C.sz s r = (send s r).length
  iOcts : ∀ s < P, C.iOcts s = (List.range P).flatMap (send s)

variable {C : Comm} {P pos : ℕ} {shape : List ℕ} {send : ℕ → ℕ → List ℕ}

theorem Realises.psum_sz (h : Realises C P send) {s r : ℕ} (hs : s < P) (hr : r ≤ P) :
    psum (C.sz s) r = psum (fun q => (send s q).length) r :=
  psum_congr fun i hi => h.sz s hs i (by omega)

theorem Realises.length_iOcts (h : Realises C P send) {s : ℕ} (hs : s < P) :
    (C.iOcts s).length = psum (C.sz s) P := by
  rw [h.iOcts s hs, length_flatMap_range, h.psum_sz hs (le_refl _)]

theorem Realises.get_iOct (h : Realises C P send) {s r q : ℕ} (hs : s < P) (hr : r < P)
    (hq : q < (send s r).length) : (C.iOcts s)[psum (C.sz s) r + q]? = (send s r)[q]? := by
  rw [h.iOcts s hs, h.psum_sz hs (by omega)]
  exact getElem?_flatMap_range (send s) hr hq

theorem Realises.psum_rsz (h : Realises C P send) {s r : ℕ} (hr : r < P) (hs : s ≤ P) :
    psum (C.rsz r) s = psum (fun q => (send q r).length) s :=
  psum_congr fun i hi => h.sz i (by omega) r hr

theorem Realises.length_ghosts (h : Realises C P send) {r : ℕ} (hr : r < P) :
    (ghosts P send r).length = C.nbGhosts P r := by
  unfold ghosts Comm.nbGhosts
  rw [length_flatMap_range, h.psum_rsz hr (le_refl _)]
  simp

theorem Realises.get_ghost (h : Realises C P send) {s r q : ℕ} (hs : s < P) (hr : r < P)
    (hq : q < (send s r).length) :
    (ghosts P send r)[psum (C.rsz r) s + q]? = ((send s r)[q]?).map fun o => (s, o) := by
  have := getElem?_flatMap_range (fun s => (send s r).map fun o => (s, o)) hs (q := q)
    (by simpa using hq)
  simp only [List.length_map, List.getElem?_map] at this
  unfold ghosts
  rw [h.psum_rsz hr (by omega)]
  exact this

/-- The octant at a position of the send buffer. -/
theorem Realises.packOrigin_eq (h : Realises C P send) {s r q : ℕ} (hs : s < P) (hr : r < P)
    (hne : r ≠ s) (hq : q < (send s r).length) :
    packOrigin C s (subOffset (C.sz s) (some s) r + q) = (send s r).getD q 0 := by
  have key : (if subOffset (C.sz s) (some s) r + q < psum (C.sz s) s then
      subOffset (C.sz s) (some s) r + q else subOffset (C.sz s) (some s) r + q + C.sz s s) =
      psum (C.sz s) r + q := by
    have hsz := h.sz s hs r hr
    rcases Nat.lt_or_ge r s with h1 | h1
    · have h2 := subOffset_le (C.sz s) (le_of_lt h1)
      have h3 := psum_mono (C.sz s) (Nat.succ_le_of_lt h1)
      rw [Nat.succ_eq_add_one, psum] at h3
      rw [if_pos (by omega), h2]
    · have h2 := subOffset_gt (C.sz s) (by omega : s < r)
      have h3 := subOffset_next (C.sz s) (skip := none) (by omega : s < r) (by simp)
      rw [subOffset_none, subOffset_none] at h3
      rw [if_neg (by omega)]
      omega
  unfold packOrigin
  rw [key, List.getD_eq_getElem?_getD, h.get_iOct hs hr hq, List.getD_eq_getElem?_getD]

theorem packWrite_addr (hpos : pos < shape.length) (U : List ℕ → α) (s index : ℕ)
    (he : 0 < eltsFrom pos shape 0) :
    (packWrite C pos shape U s index).1 = index := by
  unfold packWrite
  simp only
  rw [linLeft_pack hpos _ _ (Nat.mod_lt _ he)]
  exact Nat.mod_add_div _ _

theorem mul_add_div_mod {elts q e : ℕ} (he : e < elts) :
    (q * elts + e) / elts = q ∧ (q * elts + e) % elts = e := by
  have h0 : 0 < elts := by omega
  constructor
  · rw [Nat.mul_comm, Nat.mul_add_div h0, Nat.div_eq_of_lt he, Nat.add_zero]
  · rw [Nat.mul_comm, Nat.mul_add_mod, Nat.mod_eq_of_lt he]

/-- The messages carry the data of the octants of the send lists. -/
theorem Realises.message_eq (h : Realises C P send) (hpos : pos < shape.length)
    (U : ℕ → List ℕ → α) {order : ℕ → List ℕ}
    (hord : ∀ s < P, (order s).Perm (List.range (packSize C pos shape s)))
    {s r q e : ℕ} (hs : s < P) (hr : r < P) (hne : r ≠ s) (hq : q < (send s r).length)
    (he : e < eltsFrom pos shape 0) :
    message C pos shape U order s r (q * eltsFrom pos shape 0 + e) =
      some (U s (getUIdx pos ((send s r).getD q 0) shape 0 e)) := by
  set elts := eltsFrom pos shape 0 with helts
  have h0 : 0 < elts := by omega
  have hsz := h.sz s hs r hr
  have hlt : q * elts + e < C.sz s r * elts := by
    rw [hsz]
    calc q * elts + e < q * elts + elts := by omega
      _ = (q + 1) * elts := by ring
      _ ≤ _ := Nat.mul_le_mul_right _ hq
  unfold message
  simp only
  rw [if_pos hlt]
  set i := subOffset (C.sz s) (some s) r * elts + (q * elts + e) with hi
  have hi' : i = (subOffset (C.sz s) (some s) r + q) * elts + e := by rw [hi]; ring
  obtain ⟨hdiv, hmod⟩ := mul_add_div_mod (q := subOffset (C.sz s) (some s) r + q) he
  rw [← hi'] at hdiv hmod
  have hbound : i < packSize C pos shape s := by
    have h1 : subOffset (C.sz s) (some s) r + C.sz s r ≤ (C.iOcts s).length - C.sz s s := by
      rw [h.length_iOcts hs, ← subOffset_gt (C.sz s) hs, Nat.add_sub_cancel]
      exact subOffset_next (C.sz s) hr (by simpa using hne)
    unfold packSize
    rw [← helts]
    calc i < (subOffset (C.sz s) (some s) r + q) * elts + elts := by omega
      _ = (subOffset (C.sz s) (some s) r + q + 1) * elts := by ring
      _ ≤ _ := Nat.mul_le_mul_right _ (by omega)
  have hval : (packWrite C pos shape (U s) s i).2 =
      U s (getUIdx pos ((send s r).getD q 0) shape 0 e) := by
    unfold packWrite
    simp only
    rw [← helts, hdiv, hmod, h.packOrigin_eq hs hr hne hq]
  apply afterWrites_unique
  · refine ⟨packWrite C pos shape (U s) s i, ?_, packWrite_addr hpos _ _ _ h0⟩
    exact List.mem_map_of_mem (((hord s hs).mem_iff).2 (List.mem_range.2 hbound))
  · intro w hw hwa
    obtain ⟨j, -, rfl⟩ := List.mem_map.1 hw
    rw [packWrite_addr hpos _ _ _ h0] at hwa
    rw [hwa, hval]

/-- Receive buffers hold the messages one after the other. -/
theorem received_eq (msg : ℕ → ℕ → Option α) {skip : Option ℕ} {r s q e : ℕ} {v : α}
    (hskip : skip = none ∨ skip = some r) (hs : s < P) (hne : s ≠ r) (hq : q < C.rsz r s)
    (he : e < eltsFrom pos shape 0) (hmsg : msg s (q * eltsFrom pos shape 0 + e) = some v) :
    received C P pos shape msg skip r
      ((subOffset (C.rsz r) skip s + q) * eltsFrom pos shape 0 + e) = some v := by
  set elts := eltsFrom pos shape 0 with helts
  have hnot : ∀ t, t ≠ r → some t ≠ skip := by
    intro t ht
    rcases hskip with h | h <;> rw [h] <;> simp [ht]
  have hexp : (subOffset (C.rsz r) skip s + q) * elts + e =
      subOffset (C.rsz r) skip s * elts + (q * elts + e) := by ring
  have hlt : q * elts + e < C.rsz r s * elts := by
    calc q * elts + e < q * elts + elts := by omega
      _ = (q + 1) * elts := by ring
      _ ≤ _ := Nat.mul_le_mul_right _ hq
  unfold received
  simp only
  rw [← helts]
  apply findSome?_unique (x := s)
  · simp [hs, hne]
  · rw [hexp, if_pos ⟨by omega, by omega⟩, Nat.add_sub_cancel_left, hmsg]
  · intro t ht hts
    simp only [List.mem_filter, List.mem_range, decide_eq_true_eq, ne_eq] at ht
    rw [if_neg]
    rintro ⟨h1, h2⟩
    rw [hexp] at h1 h2
    rcases Nat.lt_or_ge t s with h3 | h3
    · have h4 := Nat.mul_le_mul_right elts (subOffset_next (C.rsz r) h3 (hnot t ht.2))
      rw [Nat.add_mul] at h4
      omega
    · have h4 := Nat.mul_le_mul_right elts
        (subOffset_next (C.rsz r) (by omega : s < t) (hnot s hne))
      rw [Nat.add_mul] at h4
      omega

/-- Value that ghost `g` of rank `r` must have at element `e`. -/
def Wanted (P pos : ℕ) (shape : List ℕ) (send : ℕ → ℕ → List ℕ) (U : ℕ → List ℕ → α)
    (r g e : ℕ) (v : α) : Prop :=
  ∃ s o, (ghosts P send r)[g]? = some (s, o) ∧ v = U s (getUIdx pos o shape 0 e)

theorem Wanted.unique {U : ℕ → List ℕ → α} {r g e : ℕ} {v v' : α}
    (h : Wanted P pos shape send U r g e v) (h' : Wanted P pos shape send U r g e v') : v = v' := by
  obtain ⟨s, o, h1, rfl⟩ := h
  obtain ⟨s', o', h2, rfl⟩ := h'
  rw [h1] at h2
  simp only [Option.some.injEq, Prod.mk.injEq] at h2
  rw [h2.1, h2.2]

theorem Realises.localWrite_wanted (h : Realises C P send) (U : ℕ → List ℕ → α) {r index : ℕ}
    (hr : r < P) (hi : index < C.sz r r * eltsFrom pos shape 0) :
    ∃ g e v, e < eltsFrom pos shape 0 ∧ localWrite C pos shape (U r) r index =
      (getUIdx pos g shape 0 e, v) ∧ Wanted P pos shape send U r g e v ∧
      g = psum (C.rsz r) r + index / eltsFrom pos shape 0 ∧ e = index % eltsFrom pos shape 0 := by
  set elts := eltsFrom pos shape 0 with helts
  have h0 : 0 < elts := by
    by_contra hc
    have : elts = 0 := by omega
    rw [this] at hi; simp at hi
  have hq : index / elts < (send r r).length := by
    rw [← h.sz r hr r hr]
    exact Nat.div_lt_of_lt_mul (by rw [Nat.mul_comm]; exact hi)
  refine ⟨psum (C.rsz r) r + index / elts, index % elts, (localWrite C pos shape (U r) r index).2,
    Nat.mod_lt _ h0, Prod.ext ?_ rfl, ⟨r, (send r r)[index / elts], ?_, ?_⟩, rfl, rfl⟩
  · unfold localWrite
    simp only
    rw [← helts, Nat.add_comm (index / elts) (psum (C.rsz r) r)]
  · rw [h.get_ghost hr hr hq, List.getElem?_eq_getElem hq]; rfl
  · have h1 := h.get_iOct hr hr hq
    rw [List.getElem?_eq_getElem hq] at h1
    unfold localWrite
    simp only
    rw [← helts, List.getD_eq_getElem?_getD, Nat.add_comm (index / elts), h1]
    rfl

theorem Realises.nbGhosts_eq (h : Realises C P send) {r : ℕ} (hr : r < P) :
    subOffset (C.rsz r) (some r) P + C.sz r r = C.nbGhosts P r := by
  have := subOffset_gt (C.rsz r) hr
  exact this

theorem Realises.unpackWrite_wanted (h : Realises C P send) (hpos : pos < shape.length)
    (U : ℕ → List ℕ → α) {order : ℕ → List ℕ}
    (hord : ∀ s < P, (order s).Perm (List.range (packSize C pos shape s))) {r s q e : ℕ}
    (hr : r < P) (hs : s < P) (hne : s ≠ r) (hq : q < (send s r).length)
    (he : e < eltsFrom pos shape 0) :
    ∃ v, unpackWrite C P pos shape
        (received C P pos shape (fun s j => message C pos shape U order s r j) (some r) r) r
        ((subOffset (C.rsz r) (some r) s + q) * eltsFrom pos shape 0 + e) =
      some (getUIdx pos (psum (C.rsz r) s + q) shape 0 e, v) ∧
      Wanted P pos shape send U r (psum (C.rsz r) s + q) e v := by
  have hmsg := h.message_eq hpos U hord hs hr (Ne.symm hne) hq he
  have hq' : q < C.rsz r s := by
    show q < C.sz s r
    rw [h.sz s hs r hr]; exact hq
  have hrec := received_eq (C := C) (P := P) (pos := pos) (shape := shape)
    (fun s j => message C pos shape U order s r j) (Or.inr rfl) hs hne hq' he hmsg
  set elts := eltsFrom pos shape 0 with helts
  refine ⟨U s (getUIdx pos ((send s r).getD q 0) shape 0 e), ?_, ?_⟩
  · unfold unpackWrite
    simp only
    obtain ⟨hdiv, hmod⟩ := mul_add_div_mod (q := subOffset (C.rsz r) (some r) s + q) he
    rw [← helts, hdiv, hmod, linLeft_pack hpos _ _ he, ← helts]
    rw [Nat.add_comm e, Nat.mul_comm elts, hrec, Option.map_some]
    congr 3
    rcases Nat.lt_or_ge s r with h1 | h1
    · have h2 := subOffset_le (C.rsz r) (le_of_lt h1)
      have h3 := psum_mono (C.rsz r) (Nat.succ_le_of_lt h1)
      rw [Nat.succ_eq_add_one, psum] at h3
      rw [if_pos (by omega), h2]
    · have h2 := subOffset_gt (C.rsz r) (by omega : r < s)
      have h3 := subOffset_next (C.rsz r) (skip := none) (by omega : r < s) (by simp)
      rw [subOffset_none, subOffset_none] at h3
      have h4 : C.rsz r r = C.sz r r := rfl
      rw [if_neg (by omega)]
      omega
  · refine ⟨s, (send s r)[q], ?_, ?_⟩
    · rw [h.get_ghost hs hr hq, List.getElem?_eq_getElem hq]; rfl
    · rw [List.getD_eq_getElem?_getD, List.getElem?_eq_getElem hq]; rfl

/-- All kernel orders are orders of their index ranges. -/
structure Orders.OK (ord : Orders) (C : Comm) (P pos : ℕ) (shape : List ℕ) : Prop where
  pack : ∀ s < P, (ord.pack s).Perm (List.range (packSize C pos shape s))
  copy : ∀ s < P, (ord.copy s).Perm (List.range (C.sz s s * eltsFrom pos shape 0))
  unpack : ∀ s < P, (ord.unpack s).Perm
    (List.range ((C.nbGhosts P s - C.sz s s) * eltsFrom pos shape 0))

theorem Realises.packed (h : Realises C P send) (hpos : pos < shape.length)
    (U : ℕ → List ℕ → α) {ord : Orders} (hord : ord.OK C P pos shape) {r g e : ℕ} (hr : r < P)
    (he : e < eltsFrom pos shape 0) {s o : ℕ} (hg : (ghosts P send r)[g]? = some (s, o)) :
    exchangePacked C P pos shape U ord r (getUIdx pos g shape 0 e) =
      some (U s (getUIdx pos o shape 0 e)) := by
  set elts := eltsFrom pos shape 0 with helts
  have h0 : 0 < elts := by omega
  have hw : Wanted P pos shape send U r g e (U s (getUIdx pos o shape 0 e)) := ⟨s, o, hg, rfl⟩
  have hglt : g < C.nbGhosts P r := by
    rw [← h.length_ghosts hr]
    exact (List.getElem?_eq_some_iff.1 hg).1
  unfold exchangePacked
  simp only
  apply afterWrites_unique
  · -- some iteration writes this entry
    obtain ⟨t, ht, -, h1, h2⟩ := exists_part (C.rsz r) none (P := P) (x := g)
      (by rw [subOffset_none]; exact hglt)
    rw [subOffset_none] at h1 h2
    have hq : g - psum (C.rsz r) t < (send t r).length := by
      have : C.rsz r t = (send t r).length := h.sz t ht r hr
      omega
    by_cases htr : t = r
    · subst htr
      obtain ⟨g', e', v, h3, h4, h5, h6, h7⟩ := h.localWrite_wanted (pos := pos) (shape := shape) U
        (index := (g - psum (C.rsz t) t) * elts + e) hr (by
          rw [h.sz t hr t hr]
          calc _ < (g - psum (C.rsz t) t) * elts + elts := by omega
            _ = (g - psum (C.rsz t) t + 1) * elts := by ring
            _ ≤ _ := Nat.mul_le_mul_right _ hq)
      obtain ⟨hdiv, hmod⟩ := mul_add_div_mod (q := g - psum (C.rsz t) t) he
      rw [← helts, hdiv] at h6
      rw [← helts, hmod] at h7
      refine ⟨(getUIdx pos g' shape 0 e', v), List.mem_append_left _ ?_, ?_⟩
      · rw [← h4]
        apply List.mem_map_of_mem
        rw [(hord.copy t hr).mem_iff, List.mem_range, h.sz t hr t hr, ← helts]
        calc _ < (g - psum (C.rsz t) t) * elts + elts := by omega
          _ = (g - psum (C.rsz t) t + 1) * elts := by ring
          _ ≤ _ := Nat.mul_le_mul_right _ hq
      · simp only
        rw [h6, h7]
        congr 1
        omega
    · obtain ⟨v, h3, -⟩ := h.unpackWrite_wanted hpos U hord.pack hr ht htr hq he
      refine ⟨_, List.mem_append_right _ (List.mem_filterMap.2 ⟨_, ?_, h3⟩), ?_⟩
      · rw [(hord.unpack r hr).mem_iff, List.mem_range, ← helts]
        have h4 : subOffset (C.rsz r) (some r) t + C.rsz r t ≤ C.nbGhosts P r - C.sz r r := by
          rw [← h.nbGhosts_eq hr, Nat.add_sub_cancel]
          exact subOffset_next (C.rsz r) ht (by simpa using htr)
        calc _ < (subOffset (C.rsz r) (some r) t + (g - psum (C.rsz r) t)) * elts + elts := by omega
          _ = (subOffset (C.rsz r) (some r) t + (g - psum (C.rsz r) t) + 1) * elts := by ring
          _ ≤ _ := Nat.mul_le_mul_right _ (by omega)
      · simp only
        congr 1
        omega
  · intro w hwm hwa
    -- every write of this entry has the wanted value
    have : ∃ g' e' v, e' < elts ∧ w = (getUIdx pos g' shape 0 e', v) ∧
        Wanted P pos shape send U r g' e' v := by
      rcases List.mem_append.1 hwm with hw1 | hw1
      · obtain ⟨i, hi, rfl⟩ := List.mem_map.1 hw1
        rw [(hord.copy r hr).mem_iff, List.mem_range] at hi
        obtain ⟨g', e', v, h3, h4, h5, -, -⟩ := h.localWrite_wanted (pos := pos) (shape := shape) U hr hi
        exact ⟨g', e', v, h3, h4, h5⟩
      · obtain ⟨i, hi, hi2⟩ := List.mem_filterMap.1 hw1
        rw [(hord.unpack r hr).mem_iff, List.mem_range, ← helts, ← h.nbGhosts_eq hr,
          Nat.add_sub_cancel] at hi
        have hi' : i / elts < subOffset (C.rsz r) (some r) P :=
          Nat.div_lt_of_lt_mul (by rw [Nat.mul_comm]; exact hi)
        obtain ⟨t, ht, htr, h1, h2⟩ := exists_part (C.rsz r) (some r) hi'
        have htr' : t ≠ r := by simpa using htr
        have hq : i / elts - subOffset (C.rsz r) (some r) t < (send t r).length := by
          have : C.rsz r t = (send t r).length := h.sz t ht r hr
          omega
        obtain ⟨v, h3, h4⟩ := h.unpackWrite_wanted hpos U hord.pack hr ht htr' hq
          (Nat.mod_lt i h0)
        have h5 : (subOffset (C.rsz r) (some r) t + (i / elts - subOffset (C.rsz r) (some r) t)) *
            elts + i % elts = i := by
          rw [Nat.add_sub_cancel' h1, Nat.mul_comm]
          exact Nat.div_add_mod i elts
        rw [← helts, h5, hi2] at h3
        exact ⟨_, _, v, Nat.mod_lt i h0, Option.some.inj h3, h4⟩
    obtain ⟨g', e', v, h3, h4, h5⟩ := this
    subst h4
    obtain ⟨rfl, rfl⟩ := getUIdx_inj hpos h3 he hwa
    exact h5.unique hw

theorem Realises.contiguous (h : Realises C P send) (hs0 : shape ≠ []) (hpos : pos = shape.length - 1)
    (U : ℕ → List ℕ → α) {ord : Orders} (hord : ord.OK C P pos shape) {r g e : ℕ} (hr : r < P)
    (he : e < eltsFrom pos shape 0) {s o : ℕ} (hg : (ghosts P send r)[g]? = some (s, o)) :
    exchangeContiguous C P pos shape U ord r (getUIdx pos g shape 0 e) =
      some (U s (getUIdx pos o shape 0 e)) := by
  have hpos' : pos < shape.length := by
    have := List.length_pos_iff.2 hs0
    omega
  have hlin : linLeft shape (getUIdx pos g shape 0 e) = e + eltsFrom pos shape 0 * g := by
    subst hpos
    exact linLeft_right hs0 g he
  set elts := eltsFrom pos shape 0 with helts
  have hw : Wanted P pos shape send U r g e (U s (getUIdx pos o shape 0 e)) := ⟨s, o, hg, rfl⟩
  have hglt : g < C.nbGhosts P r := by
    rw [← h.length_ghosts hr]
    exact (List.getElem?_eq_some_iff.1 hg).1
  obtain ⟨t, ht, -, h1, h2⟩ := exists_part (C.rsz r) none (P := P) (x := g)
    (by rw [subOffset_none]; exact hglt)
  rw [subOffset_none] at h1 h2
  have hq : g - psum (C.rsz r) t < (send t r).length := by
    have : C.rsz r t = (send t r).length := h.sz t ht r hr
    omega
  unfold exchangeContiguous
  by_cases htr : t = r
  · subst htr
    have : afterWrites ((ord.copy t).map (localWrite C pos shape (U t) t))
        (getUIdx pos g shape 0 e) = some (U s (getUIdx pos o shape 0 e)) := by
      have hbound : (g - psum (C.rsz t) t) * elts + e < C.sz t t * elts := by
        rw [h.sz t hr t hr]
        calc _ < (g - psum (C.rsz t) t) * elts + elts := by omega
          _ = (g - psum (C.rsz t) t + 1) * elts := by ring
          _ ≤ _ := Nat.mul_le_mul_right _ hq
      apply afterWrites_unique
      · obtain ⟨g', e', v, h3, h4, h5, h6, h7⟩ := h.localWrite_wanted (pos := pos) (shape := shape) U
          (index := (g - psum (C.rsz t) t) * elts + e) hr hbound
        obtain ⟨hdiv, hmod⟩ := mul_add_div_mod (q := g - psum (C.rsz t) t) he
        rw [← helts, hdiv] at h6
        rw [← helts, hmod] at h7
        refine ⟨(getUIdx pos g' shape 0 e', v), ?_, ?_⟩
        · rw [← h4]
          apply List.mem_map_of_mem
          rw [(hord.copy t hr).mem_iff, List.mem_range, ← helts]
          exact hbound
        · simp only
          rw [h6, h7]
          congr 1
          omega
      · intro w hwm hwa
        obtain ⟨i, hi, rfl⟩ := List.mem_map.1 hwm
        rw [(hord.copy t hr).mem_iff, List.mem_range] at hi
        obtain ⟨g', e', v, h3, h4, h5, -, -⟩ := h.localWrite_wanted (pos := pos) (shape := shape) U hr hi
        rw [h4] at hwa ⊢
        obtain ⟨rfl, rfl⟩ := getUIdx_inj hpos' h3 he hwa
        exact h5.unique hw
    rw [this]
  · have : afterWrites ((ord.copy r).map (localWrite C pos shape (U r) r))
        (getUIdx pos g shape 0 e) = none := by
      apply afterWrites_none
      intro w hwm hwa
      obtain ⟨i, hi, rfl⟩ := List.mem_map.1 hwm
      rw [(hord.copy r hr).mem_iff, List.mem_range] at hi
      obtain ⟨g', e', v, h3, h4, h5, h6, h7⟩ :=
        h.localWrite_wanted (pos := pos) (shape := shape) U hr hi
      rw [h4] at hwa
      obtain ⟨rfl, rfl⟩ := getUIdx_inj hpos' h3 he hwa
      have h8 : i / eltsFrom pos shape 0 < C.sz r r :=
        Nat.div_lt_of_lt_mul (by rw [Nat.mul_comm]; exact hi)
      have h9 : C.rsz r r = C.sz r r := rfl
      generalize i / eltsFrom pos shape 0 = y at h6 h8
      rcases Nat.lt_or_ge t r with h10 | h10
      · have := psum_mono (C.rsz r) (Nat.succ_le_of_lt h10)
        rw [Nat.succ_eq_add_one, psum] at this
        omega
      · have := psum_mono (C.rsz r) (by omega : r + 1 ≤ t)
        rw [psum] at this
        omega
    rw [this]
    simp only
    have hmsg := h.message_eq hpos' U hord.pack ht hr (Ne.symm htr) hq he
    have hrec := received_eq (C := C) (P := P) (pos := pos) (shape := shape)
      (fun s j => message C pos shape U ord.pack s r j) (Or.inl rfl) ht htr
      (by show _ < C.sz t r; rw [h.sz t ht r hr]; exact hq) he hmsg
    rw [subOffset_none, Nat.add_sub_cancel' h1] at hrec
    rw [hlin, Nat.add_comm e, Nat.mul_comm elts, helts, hrec]
    have h3 := h.get_ghost ht hr hq
    rw [Nat.add_sub_cancel' h1, hg, List.getElem?_eq_getElem hq] at h3
    simp only [Option.map_some, Option.some.injEq, Prod.mk.injEq] at h3
    rw [List.getD_eq_getElem?_getD, List.getElem?_eq_getElem hq, h3.1, h3.2]
    rfl

end Verif.Comm
