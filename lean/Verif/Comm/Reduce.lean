import Verif.Comm.Exchange
import Mathlib.Algebra.BigOperators.Intervals
import Mathlib.Algebra.BigOperators.Group.List.Basic
import Mathlib.Algebra.BigOperators.Ring.Finset

/-!
# What `reduce_ghosts` computes
-/

namespace Verif.Comm

open Finset

variable {α : Type} [AddCommMonoid α]
variable {C : Comm} {P pos : ℕ} {shape : List ℕ} {send : ℕ → ℕ → List ℕ}

theorem sum_psum (f : ℕ → ℕ) (F : ℕ → α) (n : ℕ) :
    ∑ x ∈ range (psum f n), F x = ∑ s ∈ range n, ∑ q ∈ range (f s), F (psum f s + q) := by
  induction n with
  | zero => simp [psum]
  | succ n ih => rw [psum, sum_range_add, ih, sum_range_succ]

theorem psum_const (c n : ℕ) : psum (fun _ => c) n = n * c := by
  induction n with
  | zero => simp [psum]
  | succ n ih => rw [psum, ih]; ring

theorem sum_mul_range (c n : ℕ) (F : ℕ → α) :
    ∑ x ∈ range (n * c), F x = ∑ j ∈ range n, ∑ e ∈ range c, F (j * c + e) := by
  rw [← psum_const, sum_psum]
  simp only [psum_const]

theorem list_sum_range (F : ℕ → α) (n : ℕ) : ((List.range n).map F).sum = ∑ x ∈ range n, F x := by
  induction n with
  | zero => simp
  | succ n ih => rw [List.range_succ, sum_range_succ, List.map_append, List.sum_append, ih]; simp

theorem foldlM_some {β γ : Type} {f : β → γ → Option β} {g : β → γ → β} {l : List γ}
    (h : ∀ b, ∀ c ∈ l, f b c = some (g b c)) (b : β) : l.foldlM f b = some (l.foldl g b) := by
  induction l generalizing b with
  | nil => rfl
  | cons c l ih =>
    rw [List.foldlM_cons, h b c (by simp), List.foldl_cons]
    exact ih (fun b c hc => h b c (List.mem_cons_of_mem _ hc)) _

theorem foldl_add (addr : ℕ → List ℕ) (val : ℕ → α) (l : List ℕ) (U : List ℕ → α) (idx : List ℕ) :
    (l.foldl (fun (U : List ℕ → α) i => fun idx => if idx = addr i then U idx + val i else U idx) U) idx =
      U idx + (l.map fun i => if idx = addr i then val i else 0).sum := by
  induction l generalizing U with
  | nil => simp
  | cons i l ih =>
    rw [List.foldl_cons, ih, List.map_cons, List.sum_cons, ← add_assoc]
    congr 1
    split <;> simp

omit [AddCommMonoid α] in
theorem reducePackWrite_addr (hpos : pos < shape.length) (V : List ℕ → α) (r index : ℕ)
    (he : 0 < eltsFrom pos shape 0) :
    (reducePackWrite C P pos shape V r index).1 = index := by
  unfold reducePackWrite
  simp only
  rw [linLeft_pack hpos _ _ (Nat.mod_lt _ he)]
  exact Nat.mod_add_div _ _

theorem subOffset_zero (f : ℕ → ℕ) {s : ℕ} (h : f s = 0) (r : ℕ) : subOffset f (some s) r = psum f r := by
  induction r with
  | zero => rfl
  | succ r ih =>
    rw [subOffset, psum, ih]
    split
    · rename_i h1
      simp only [Option.some.injEq] at h1
      rw [h1, h]
    · rfl

omit [AddCommMonoid α] in
/-- Messages back to the owners carry the ghost values. -/
theorem Realises.reduceMessage_eq (h : Realises C P send) (hpos : pos < shape.length)
    (V : ℕ → List ℕ → α) {order : ℕ → List ℕ}
    (hord : ∀ r < P, (order r).Perm (List.range (C.nbGhosts P r * eltsFrom pos shape 0)))
    (hloc : ∀ r < P, C.sz r r = 0) {s r q e : ℕ} (hs : s < P) (hr : r < P)
    (hq : q < (send s r).length) (he : e < eltsFrom pos shape 0) :
    reduceMessage C P pos shape V order r s (q * eltsFrom pos shape 0 + e) =
      some (V r (getUIdx pos (psum (C.rsz r) s + q) shape 0 e)) := by
  set elts := eltsFrom pos shape 0 with helts
  have h0 : 0 < elts := by omega
  have hsz : C.rsz r s = (send s r).length := h.sz s hs r hr
  have hlt : q * elts + e < C.rsz r s * elts := by
    rw [hsz]
    calc q * elts + e < q * elts + elts := by omega
      _ = (q + 1) * elts := by ring
      _ ≤ _ := Nat.mul_le_mul_right _ hq
  unfold reduceMessage
  simp only
  rw [← helts, if_pos hlt, subOffset_zero (C.rsz r) (hloc r hr)]
  set i := psum (C.rsz r) s * elts + (q * elts + e) with hi
  have hi' : i = (psum (C.rsz r) s + q) * elts + e := by rw [hi]; ring
  obtain ⟨hdiv, hmod⟩ := mul_add_div_mod (q := psum (C.rsz r) s + q) he
  rw [← hi'] at hdiv hmod
  have hbound : i < C.nbGhosts P r * elts := by
    have h1 := psum_mono (C.rsz r) (Nat.succ_le_of_lt hs)
    rw [Nat.succ_eq_add_one, psum] at h1
    calc i < (psum (C.rsz r) s + q) * elts + elts := by omega
      _ = (psum (C.rsz r) s + q + 1) * elts := by ring
      _ ≤ _ := Nat.mul_le_mul_right _ (by unfold Comm.nbGhosts; omega)
  have hval : (reducePackWrite C P pos shape (V r) r i).2 =
      V r (getUIdx pos (psum (C.rsz r) s + q) shape 0 e) := by
    unfold reducePackWrite
    simp only
    rw [← helts, hdiv, hmod]
  apply afterWrites_unique
  · refine ⟨reducePackWrite C P pos shape (V r) r i, ?_, reducePackWrite_addr hpos _ _ _ h0⟩
    exact List.mem_map_of_mem (((hord r hr).mem_iff).2 (List.mem_range.2 hbound))
  · intro w hw hwa
    obtain ⟨j, -, rfl⟩ := List.mem_map.1 hw
    rw [reducePackWrite_addr hpos _ _ _ h0] at hwa
    rw [hwa, hval]

/-- The communicator with senders and receivers exchanged. -/
def Comm.transpose (C : Comm) : Comm := ⟨fun a b => C.sz b a, C.iOcts⟩

omit [AddCommMonoid α] in
theorem Realises.reduceReceived_eq (h : Realises C P send) (hpos : pos < shape.length)
    (V : ℕ → List ℕ → α) {order : ℕ → List ℕ}
    (hord : ∀ r < P, (order r).Perm (List.range (C.nbGhosts P r * eltsFrom pos shape 0)))
    (hloc : ∀ r < P, C.sz r r = 0) {s r q e : ℕ} (hs : s < P) (hr : r < P)
    (hq : q < (send s r).length) (he : e < eltsFrom pos shape 0) :
    reduceReceived C P pos shape (fun r j => reduceMessage C P pos shape V order r s j) s
      ((psum (C.sz s) r + q) * eltsFrom pos shape 0 + e) =
      some (V r (getUIdx pos (psum (C.rsz r) s + q) shape 0 e)) := by
  have hq' : q < C.sz s r := by rw [h.sz s hs r hr]; exact hq
  have hne : r ≠ s := by
    rintro rfl
    rw [hloc r hr] at hq'
    omega
  have := received_eq (C := C.transpose) (P := P) (pos := pos) (shape := shape)
    (fun r j => reduceMessage C P pos shape V order r s j) (skip := some s) (r := s) (s := r)
    (Or.inr rfl) hr hne hq' he (h.reduceMessage_eq hpos V hord hloc hs hr hq he)
  have e1 : subOffset (C.transpose.rsz s) (some s) r = psum (C.sz s) r := by
    show subOffset (C.sz s) (some s) r = _
    exact subOffset_zero (C.sz s) (hloc s hs) r
  rw [e1] at this
  exact this

theorem Realises.reduce (h : Realises C P send) (hpos : pos < shape.length)
    (U V : ℕ → List ℕ → α) {order orderAdd : ℕ → List ℕ}
    (hord : ∀ r < P, (order r).Perm (List.range (C.nbGhosts P r * eltsFrom pos shape 0)))
    (hadd : ∀ s < P, (orderAdd s).Perm (List.range ((C.iOcts s).length * eltsFrom pos shape 0)))
    (hloc : ∀ r < P, C.sz r r = 0) {s : ℕ} (hs : s < P) :
    ∃ U', reduceGhosts C P pos shape U V order orderAdd s = some U' ∧
      ∀ o, ∀ e < eltsFrom pos shape 0, U' (getUIdx pos o shape 0 e) =
        U s (getUIdx pos o shape 0 e) +
          ∑ r ∈ range P, ∑ g ∈ range (ghosts P send r).length,
            if (ghosts P send r)[g]? = some (s, o) then V r (getUIdx pos g shape 0 e) else 0 := by
  set elts := eltsFrom pos shape 0 with helts
  set buf := reduceReceived C P pos shape (fun r j => reduceMessage C P pos shape V order r s j) s
    with hbuf
  set addr : ℕ → List ℕ := fun i =>
    getUIdx pos ((C.iOcts s).getD (i / elts) 0) shape 0 (i % elts) with haddr
  set val : ℕ → α := fun i => (buf i).getD 0 with hval
  have hlen := h.length_iOcts hs
  -- decomposition of a buffer position
  have hdec : ∀ i < (C.iOcts s).length * elts, ∃ r < P, ∃ q < (send s r).length,
      i / elts = psum (C.sz s) r + q := by
    intro i hi
    have h1 : i / elts < subOffset (C.sz s) none P := by
      rw [subOffset_none, ← hlen]
      exact Nat.div_lt_of_lt_mul (by rw [Nat.mul_comm]; exact hi)
    obtain ⟨r, hr, -, h2, h3⟩ := exists_part _ _ h1
    rw [subOffset_none] at h2 h3
    rw [h.sz s hs r hr] at h3
    exact ⟨r, hr, i / elts - psum (C.sz s) r, by omega, by omega⟩
  have hbufval : ∀ r < P, ∀ q < (send s r).length, ∀ e < elts,
      buf ((psum (C.sz s) r + q) * elts + e) =
        some (V r (getUIdx pos (psum (C.rsz r) s + q) shape 0 e)) := fun r hr q hq e he =>
    h.reduceReceived_eq hpos V hord hloc hs hr hq he
  have hstep : ∀ (W : List ℕ → α), ∀ i ∈ orderAdd s, reduceStep C pos shape buf s W i =
      some (fun idx => if idx = addr i then W idx + val i else W idx) := by
    intro W i hi
    rw [(hadd s hs).mem_iff, List.mem_range] at hi
    have h0 : 0 < elts := by
      by_contra hc
      have : elts = 0 := by omega
      rw [this] at hi; simp at hi
    obtain ⟨r, hr, q, hq, h1⟩ := hdec i hi
    have h2 : i = (psum (C.sz s) r + q) * elts + i % elts := by
      rw [← h1, Nat.mul_comm]; exact (Nat.div_add_mod i elts).symm
    have h3 := hbufval r hr q hq (i % elts) (Nat.mod_lt _ h0)
    rw [← h2] at h3
    unfold reduceStep
    simp only
    rw [← helts, linLeft_pack hpos _ _ (Nat.mod_lt _ h0), ← helts, Nat.mod_add_div, h3,
      Option.map_some]
    simp only [haddr, hval, h3, Option.getD_some]
  unfold reduceGhosts
  rw [if_pos (hloc s hs), ← hbuf, foldlM_some hstep]
  refine ⟨_, rfl, ?_⟩
  intro o e he
  rw [foldl_add]
  congr 1
  rw [((hadd s hs).map _).sum_eq, list_sum_range, sum_mul_range]
  have hcond : ∀ j, ∀ e' < elts, (getUIdx pos o shape 0 e = addr (j * elts + e')) ↔
      ((C.iOcts s).getD j 0 = o ∧ e' = e) := by
    intro j e' he'
    obtain ⟨hdiv, hmod⟩ := mul_add_div_mod (q := j) he'
    simp only [haddr, hdiv, hmod]
    constructor
    · intro hh
      obtain ⟨h1, h2⟩ := getUIdx_inj hpos he he' hh
      exact ⟨h1.symm, h2.symm⟩
    · rintro ⟨h1, h2⟩; rw [h1, h2]
  have hinner : ∀ j, (∑ e' ∈ range elts,
      if getUIdx pos o shape 0 e = addr (j * elts + e') then val (j * elts + e') else 0) =
      if (C.iOcts s).getD j 0 = o then val (j * elts + e) else 0 := by
    intro j
    rw [Finset.sum_eq_single e]
    · by_cases hc : (C.iOcts s).getD j 0 = o
      · rw [if_pos ((hcond j e he).2 ⟨hc, rfl⟩), if_pos hc]
      · rw [if_neg (fun hh => hc ((hcond j e he).1 hh).1), if_neg hc]
    · intro e' he' hne
      rw [mem_range] at he'
      rw [if_neg (fun hh => hne ((hcond j e' he').1 hh).2)]
    · intro hh
      exact absurd (mem_range.2 he) hh
  rw [sum_congr rfl (fun j _ => hinner j), hlen, sum_psum]
  apply sum_congr rfl
  intro r hr
  rw [mem_range] at hr
  rw [h.length_ghosts hr]
  unfold Comm.nbGhosts
  rw [sum_psum]
  symm
  rw [Finset.sum_eq_single s]
  · symm
    have hsz : C.sz s r = C.rsz r s := rfl
    rw [hsz]
    apply sum_congr rfl
    intro q hq
    rw [mem_range] at hq
    have hq' : q < (send s r).length := by
      rw [← h.sz s hs r hr]; exact hq
    have h1 := h.get_iOct hs hr hq'
    have h2 := h.get_ghost hs hr hq'
    have h3 := hbufval r hr q hq' e he
    rw [List.getElem?_eq_getElem hq'] at h1 h2
    have hc : ((C.iOcts s).getD (psum (C.sz s) r + q) 0 = o) ↔
        (ghosts P send r)[psum (C.rsz r) s + q]? = some (s, o) := by
      rw [List.getD_eq_getElem?_getD, h1, h2]
      simp
    by_cases hh : (C.iOcts s).getD (psum (C.sz s) r + q) 0 = o
    · rw [if_pos hh, if_pos (hc.1 hh)]
      simp only [hval, h3, Option.getD_some]
    · rw [if_neg hh, if_neg (fun hn => hh (hc.2 hn))]
  · intro t ht hne
    rw [mem_range] at ht
    apply sum_eq_zero
    intro q hq
    rw [mem_range] at hq
    have hq' : q < (send t r).length := by
      rw [← h.sz t ht r hr]; exact hq
    rw [h.get_ghost ht hr hq', List.getElem?_eq_getElem hq', if_neg]
    simp [hne]
  · intro hh
    exact absurd (mem_range.2 hs) hh

end Verif.Comm
