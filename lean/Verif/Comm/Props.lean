import Verif.Comm.Reduce
import Verif.Comm.Facemask
import Mathlib.Algebra.BigOperators.Ring.Finset
import Mathlib.Data.List.Lex
import Mathlib.Data.List.Sort

/-!
# Properties of ghost exchange, ghost reduction and redistribution
-/

namespace Verif.Comm

open Finset

variable {α : Type} {P pos : ℕ} {shape : List ℕ} {C : Comm} {send : ℕ → ℕ → List ℕ}

/-! ### Which octants a communicator sends -/

theorem ofMap_realises (P : ℕ) (send : ℕ → ℕ → List ℕ) : Realises (ofMap P send) P send :=
  ⟨fun _ _ _ _ => rfl, fun _ _ => rfl⟩

/-- The octants sent by rank `s` to rank `r`: the part of `send_iOcts` given by `send_sizes`. -/
def Comm.part (C : Comm) (s r : ℕ) : List ℕ := ((C.iOcts s).drop (psum (C.sz s) r)).take (C.sz s r)

theorem flatMap_part (l : List ℕ) (f : ℕ → ℕ) (n : ℕ) :
    (List.range n).flatMap (fun r => (l.drop (psum f r)).take (f r)) = l.take (psum f n) := by
  induction n with
  | zero => simp [psum]
  | succ n ih =>
    rw [List.range_succ, List.flatMap_append, ih, psum, List.take_add]
    simp

/-- `ViewCommunicator.cpp` L62-84 `private_init_map`: any sizes and octants that fit together. -/
theorem part_realises (h : ∀ s < P, (C.iOcts s).length = psum (C.sz s) P) : Realises C P C.part := by
  have hm : ∀ f : ℕ → ℕ, ∀ a b, a ≤ b → psum f a ≤ psum f b := by
    intro f a b hab
    induction hab with
    | refl => exact le_refl _
    | step _ ih => rw [psum]; omega
  constructor
  · intro s hs r hr
    unfold Comm.part
    rw [List.length_take, List.length_drop, h s hs]
    have := hm (C.sz s) (r + 1) P hr
    rw [psum] at this
    omega
  · intro s hs
    unfold Comm.part
    rw [flatMap_part, ← h s hs, List.take_length]

theorem idx_eq {idx : List ℕ} {g : ℕ} (hg : idx[pos]? = some g) : idx.set pos g = idx := by
  apply List.ext_getElem?
  intro i
  rw [List.getElem?_set]
  split
  · rename_i h
    subst h
    rw [hg]
    split
    · rfl
    · rename_i h
      rw [List.getElem?_eq_none (by omega)] at hg
      cases hg
  · rfl

/-! ### C19 -/

/-- **C19** (layouts where the values of an octant are not contiguous). -/
theorem C19_exchange_packed (h : Realises C P send) (hpos : pos < shape.length) (U : ℕ → List ℕ → α)
    {ord : Orders} (hord : ord.OK C P pos shape) {r g s o : ℕ} (hr : r < P)
    (hg : (ghosts P send r)[g]? = some (s, o)) {idx : List ℕ} (hidx : InShape pos shape idx)
    (hig : idx[pos]? = some g) :
    exchangePacked C P pos shape U ord r idx = some (U s (idx.set pos o)) := by
  obtain ⟨e, he, h1⟩ := exists_elt hidx
  have h2 := h.packed hpos U hord hr he hg
  rw [h1, h1, idx_eq hig] at h2
  exact h2

/-- **C19** (contiguous octants: received directly in the ghost array). -/
theorem C19_exchange_contiguous (h : Realises C P send) (hs0 : shape ≠ [])
    (hpos : pos = shape.length - 1) (U : ℕ → List ℕ → α)
    {ord : Orders} (hord : ord.OK C P pos shape) {r g s o : ℕ} (hr : r < P)
    (hg : (ghosts P send r)[g]? = some (s, o)) {idx : List ℕ} (hidx : InShape pos shape idx)
    (hig : idx[pos]? = some g) :
    exchangeContiguous C P pos shape U ord r idx = some (U s (idx.set pos o)) := by
  have hpos' : pos < shape.length := by
    have := List.length_pos_iff.2 hs0
    omega
  obtain ⟨e, he, h1⟩ := exists_elt hidx
  have h2 := h.contiguous hs0 hpos U hord hr he hg
  rw [h1, h1, idx_eq hig] at h2
  exact h2

/-- **C19**: the number of ghosts allocated is the number of ghosts received. -/
theorem C19_ghost_count (h : Realises C P send) {r : ℕ} (hr : r < P) :
    C.nbGhosts P r = (ghosts P send r).length := (h.length_ghosts hr).symm

/-! ### C20 -/

section

variable [AddCommMonoid α]

/-- **C20**: after a reduction, an owner holds its value plus the sum of all ghost copies. -/
theorem C20_reduce_owner (h : Realises C P send) (hpos : pos < shape.length)
    (U V : ℕ → List ℕ → α) {order orderAdd : ℕ → List ℕ}
    (hord : ∀ r < P, (order r).Perm (List.range (C.nbGhosts P r * eltsFrom pos shape 0)))
    (hadd : ∀ s < P, (orderAdd s).Perm (List.range ((C.iOcts s).length * eltsFrom pos shape 0)))
    (hloc : ∀ r < P, send r r = []) {s : ℕ} (hs : s < P) :
    ∃ U', reduceGhosts C P pos shape U V order orderAdd s = some U' ∧
      ∀ idx o, InShape pos shape idx → idx[pos]? = some o →
        U' idx = U s idx + ∑ r ∈ range P, ∑ g ∈ range (ghosts P send r).length,
            if (ghosts P send r)[g]? = some (s, o) then V r (idx.set pos g) else 0 := by
  obtain ⟨U', h1, h2⟩ := h.reduce hpos U V hord hadd
    (fun r hr => by rw [h.sz r hr r hr, hloc r hr]; rfl) hs
  refine ⟨U', h1, ?_⟩
  intro idx o hidx hio
  obtain ⟨e, he, h3⟩ := exists_elt hidx
  have h4 := h2 o e he
  rw [h3, idx_eq hio] at h4
  rw [h4]
  congr 1
  refine sum_congr rfl fun r _ => sum_congr rfl fun g _ => ?_
  rw [h3]

theorem sum_owners {n : ℕ → ℕ} {G : ℕ} (F : ℕ → ℕ → ℕ → α) (gh : ℕ → Option (ℕ × ℕ)) (v : ℕ → α)
    (hin : ∀ g < G, ∃ s o, gh g = some (s, o) ∧ s < P ∧ o < n s ∧ F g s o = v g) :
    ∑ s ∈ range P, ∑ o ∈ range (n s), ∑ g ∈ range G, (if gh g = some (s, o) then F g s o else 0) =
      ∑ g ∈ range G, v g := by
  have : ∀ s ∈ range P, ∑ o ∈ range (n s), ∑ g ∈ range G, (if gh g = some (s, o) then F g s o else 0) =
      ∑ g ∈ range G, ∑ o ∈ range (n s), (if gh g = some (s, o) then F g s o else 0) :=
    fun s _ => sum_comm
  rw [sum_congr rfl this, sum_comm]
  refine sum_congr rfl fun g hg => ?_
  obtain ⟨s, o, h1, h2, h3, h4⟩ := hin g (mem_range.1 hg)
  rw [sum_eq_single s, sum_eq_single o]
  · rw [h1, if_pos rfl, h4]
  · intro o' _ ho'
    rw [h1, if_neg]
    simp only [Option.some.injEq, Prod.mk.injEq, true_and]
    exact fun e => ho' e.symm
  · intro h
    exact absurd (mem_range.2 h3) h
  · intro s' _ hs'
    refine sum_eq_zero fun o' _ => ?_
    rw [h1, if_neg]
    simp only [Option.some.injEq, Prod.mk.injEq]
    exact fun e => hs' e.1.symm
  · intro h
    exact absurd (mem_range.2 h2) h

theorem ghosts_inside {n : ℕ → ℕ} (hn : ∀ s < P, ∀ r < P, ∀ o ∈ send s r, o < n s) {r g : ℕ} (hr : r < P)
    (hg : g < (ghosts P send r).length) :
    ∃ s o, (ghosts P send r)[g]? = some (s, o) ∧ s < P ∧ o < n s := by
  have hm : (ghosts P send r)[g] ∈ ghosts P send r := List.getElem_mem hg
  have hm' := hm
  unfold ghosts at hm'
  simp only [List.mem_flatMap, List.mem_range, List.mem_map] at hm'
  obtain ⟨s, hs, o, ho, he⟩ := hm'
  refine ⟨s, o, ?_, hs, hn s hs r hr o ho⟩
  rw [List.getElem?_eq_getElem hg]
  unfold ghosts
  rw [he]

/-- **C20**: the total over owners afterwards is the total over owners and ghosts before, separately
for each element of the octants. -/
theorem C20_reduce_total (h : Realises C P send) (hpos : pos < shape.length)
    (U V : ℕ → List ℕ → α) {order orderAdd : ℕ → List ℕ}
    (hord : ∀ r < P, (order r).Perm (List.range (C.nbGhosts P r * eltsFrom pos shape 0)))
    (hadd : ∀ s < P, (orderAdd s).Perm (List.range ((C.iOcts s).length * eltsFrom pos shape 0)))
    (hloc : ∀ r < P, send r r = []) {n : ℕ → ℕ}
    (hn : ∀ s < P, ∀ r < P, ∀ o ∈ send s r, o < n s) {U' : ℕ → List ℕ → α}
    (hU' : ∀ s < P, reduceGhosts C P pos shape U V order orderAdd s = some (U' s))
    {idx : List ℕ} (hidx : InShape pos shape idx) :
    ∑ s ∈ range P, ∑ o ∈ range (n s), U' s (idx.set pos o) =
      ∑ s ∈ range P, ∑ o ∈ range (n s), U s (idx.set pos o) +
      ∑ r ∈ range P, ∑ g ∈ range (ghosts P send r).length, V r (idx.set pos g) := by
  have hset : ∀ o, InShape pos shape (idx.set pos o) := by
    intro o
    refine ⟨by rw [List.length_set]; exact hidx.1, ?_⟩
    intro k m i hk hm hi
    rw [List.getElem?_set_ne (Ne.symm hk)] at hi
    exact hidx.2 k m i hk hm hi
  have hlen : pos < idx.length := by rw [hidx.1]; exact hpos
  have key : ∀ s ∈ range P, ∑ o ∈ range (n s), U' s (idx.set pos o) =
      ∑ o ∈ range (n s), U s (idx.set pos o) + ∑ o ∈ range (n s), ∑ r ∈ range P,
        ∑ g ∈ range (ghosts P send r).length,
          if (ghosts P send r)[g]? = some (s, o) then V r (idx.set pos g) else 0 := by
    intro s hs
    obtain ⟨U1, h1, h2⟩ := C20_reduce_owner h hpos U V hord hadd hloc (mem_range.1 hs)
    rw [hU' s (mem_range.1 hs)] at h1
    have h1' : U' s = U1 := Option.some.inj h1
    rw [← sum_add_distrib]
    refine sum_congr rfl fun o _ => ?_
    rw [h1', h2 _ o (hset o) (by rw [List.getElem?_set_self hlen])]
    congr 1
    refine sum_congr rfl fun r _ => sum_congr rfl fun g _ => ?_
    rw [List.set_set]
  rw [sum_congr rfl key, sum_add_distrib]
  congr 1
  have : ∀ s ∈ range P, ∑ o ∈ range (n s), ∑ r ∈ range P,
        ∑ g ∈ range (ghosts P send r).length,
          (if (ghosts P send r)[g]? = some (s, o) then V r (idx.set pos g) else 0) =
      ∑ r ∈ range P, ∑ o ∈ range (n s), ∑ g ∈ range (ghosts P send r).length,
          (if (ghosts P send r)[g]? = some (s, o) then V r (idx.set pos g) else 0) :=
    fun s _ => sum_comm
  rw [sum_congr rfl this, sum_comm]
  refine sum_congr rfl fun r hr => ?_
  refine sum_owners (fun g _ _ => V r (idx.set pos g)) (fun g => (ghosts P send r)[g]?) _ ?_
  intro g hg
  obtain ⟨s, o, a, b, c⟩ := ghosts_inside hn (mem_range.1 hr) hg
  exact ⟨s, o, a, b, c, rfl⟩

end

/-- **C20**: reduction is the adjoint of exchange: the inner product over owners of a reduced ghost
array with `W` is the inner product over ghosts of the ghost array with the exchanged `W`. -/
theorem C20_adjoint {R : Type} [CommSemiring R] (h : Realises C P send) (hpos : pos < shape.length)
    (V W : ℕ → List ℕ → R) {order orderAdd : ℕ → List ℕ} {ord : Orders} (hex : ord.OK C P pos shape)
    (hord : ∀ r < P, (order r).Perm (List.range (C.nbGhosts P r * eltsFrom pos shape 0)))
    (hadd : ∀ s < P, (orderAdd s).Perm (List.range ((C.iOcts s).length * eltsFrom pos shape 0)))
    (hloc : ∀ r < P, send r r = []) {n : ℕ → ℕ}
    (hn : ∀ s < P, ∀ r < P, ∀ o ∈ send s r, o < n s) {V' W' : ℕ → List ℕ → R}
    (hV' : ∀ s < P, reduceGhosts C P pos shape (fun _ _ => 0) V order orderAdd s = some (V' s))
    {idx : List ℕ} (hidx : InShape pos shape idx)
    (hW' : ∀ r < P, ∀ g < C.nbGhosts P r,
      exchangePacked C P pos shape W ord r (idx.set pos g) = some (W' r (idx.set pos g))) :
    ∑ s ∈ range P, ∑ o ∈ range (n s), V' s (idx.set pos o) * W s (idx.set pos o) =
      ∑ r ∈ range P, ∑ g ∈ range (C.nbGhosts P r), V r (idx.set pos g) * W' r (idx.set pos g) := by
  have hset : ∀ o, InShape pos shape (idx.set pos o) := by
    intro o
    refine ⟨by rw [List.length_set]; exact hidx.1, ?_⟩
    intro k m i hk hm hi
    rw [List.getElem?_set_ne (Ne.symm hk)] at hi
    exact hidx.2 k m i hk hm hi
  have hlen : pos < idx.length := by rw [hidx.1]; exact hpos
  have key : ∀ s ∈ range P, ∑ o ∈ range (n s), V' s (idx.set pos o) * W s (idx.set pos o) =
      ∑ r ∈ range P, ∑ o ∈ range (n s), ∑ g ∈ range (ghosts P send r).length,
          if (ghosts P send r)[g]? = some (s, o) then V r (idx.set pos g) * W s (idx.set pos o)
          else 0 := by
    intro s hs
    obtain ⟨U1, h1, h2⟩ := C20_reduce_owner h hpos (fun _ _ => 0) V hord hadd hloc (mem_range.1 hs)
    rw [hV' s (mem_range.1 hs)] at h1
    have h1' : V' s = U1 := Option.some.inj h1
    rw [sum_comm]
    refine sum_congr rfl fun o _ => ?_
    rw [h1', h2 _ o (hset o) (by rw [List.getElem?_set_self hlen]), zero_add, sum_mul]
    refine sum_congr rfl fun r _ => ?_
    rw [sum_mul]
    refine sum_congr rfl fun g _ => ?_
    rw [List.set_set, ite_mul, zero_mul]
  rw [sum_congr rfl key, sum_comm]
  refine sum_congr rfl fun r hr => ?_
  have hr' := mem_range.1 hr
  rw [← h.length_ghosts hr']
  refine sum_owners (fun g s o => V r (idx.set pos g) * W s (idx.set pos o))
    (fun g => (ghosts P send r)[g]?) _ ?_
  intro g hg
  obtain ⟨s, o, a, b, c⟩ := ghosts_inside hn hr' hg
  refine ⟨s, o, a, b, c, ?_⟩
  have h5 := C19_exchange_packed h hpos W hex hr' a (hset g) (by rw [List.getElem?_set_self hlen])
  rw [hW' r hr' g (by rw [← h.length_ghosts hr']; exact hg), List.set_set] at h5
  rw [Option.some.inj h5]

/-! ### C22 -/

theorem countSizes_eq (d : List ℕ) (r : ℕ) : countSizes d r = (itemsFor d r).length := by
  have h1 : ∀ n, d.foldl (fun n x => if x = r then n + 1 else n) n = n + d.countP (fun x => x = r) := by
    induction d with
    | nil => simp
    | cons x d ih =>
      intro n
      rw [List.foldl_cons, ih, List.countP_cons]
      by_cases h : x = r <;> simp [h] <;> omega
  unfold countSizes itemsFor
  rw [h1, Nat.zero_add]
  have h2 : d = (List.range d.length).map (fun i => d.getD i 0) := by
    apply List.ext_getElem
    · simp
    · intro i hi _
      simp [List.getD, List.getElem?_eq_getElem hi]
  conv_lhs => rw [h2]
  rw [List.countP_map, ← List.countP_eq_length_filter]
  apply List.countP_congr
  intro i hi
  rw [List.mem_range] at hi
  simp [List.getD, List.getElem?_eq_getElem hi]

theorem ofDomains_realises {domains : ℕ → List ℕ} (h : ofDomains P domains = some C) :
    Realises C P fun s r => itemsFor (domains s) r := by
  unfold ofDomains at h
  split at h
  · cases h
    refine ⟨fun s _ r _ => countSizes_eq _ _, fun s _ => ?_⟩
    simp only
    congr 1
    funext r
    split
    · rfl
    · rename_i h0
      rw [countSizes_eq] at h0
      exact (List.length_eq_zero_iff.1 (by omega)).symm
  · cases h

/-- **C22**: the communicator exists exactly if all targets are ranks. -/
theorem C22_defined_iff {domains : ℕ → List ℕ} :
    (∃ C, ofDomains P domains = some C) ↔ ∀ s < P, ∀ t ∈ domains s, t < P := by
  unfold ofDomains
  constructor
  · rintro ⟨C, h⟩
    split at h
    · rename_i hc
      simpa using hc
    · cases h
  · intro h
    rw [if_pos (by simpa using h)]
    exact ⟨_, rfl⟩

/-- **C22**: every rank receives exactly the items with this rank as target, each once, ordered by
source rank and by position on the source. -/
theorem C22_redistribute {domains : ℕ → List ℕ} (h : ofDomains P domains = some C)
    (hpos : pos < shape.length) (U : ℕ → List ℕ → α) {ord : Orders} (hord : ord.OK C P pos shape)
    {r : ℕ} (hr : r < P) :
    ∃ l : List (ℕ × ℕ), l.Pairwise (fun a b => a.1 < b.1 ∨ (a.1 = b.1 ∧ a.2 < b.2)) ∧
      (∀ s i, (s, i) ∈ l ↔ s < P ∧ (domains s)[i]? = some r) ∧
      C.nbGhosts P r = l.length ∧
      ∀ g s i idx, l[g]? = some (s, i) → InShape pos shape idx → idx[pos]? = some g →
        exchangePacked C P pos shape U ord r idx = some (U s (idx.set pos i)) := by
  have hR := ofDomains_realises h
  refine ⟨ghosts P (fun s r => itemsFor (domains s) r) r, ?_, ?_, C19_ghost_count hR hr, ?_⟩
  · unfold ghosts
    rw [List.pairwise_flatMap]
    constructor
    · intro s _
      rw [List.pairwise_map]
      have : (itemsFor (domains s) r).Pairwise (· < ·) := by
        unfold itemsFor
        exact List.Pairwise.filter _ List.pairwise_lt_range
      exact this.imp fun hab => Or.inr ⟨rfl, hab⟩
    · refine List.pairwise_lt_range.imp ?_
      intro a b hab x hx y hy
      rw [List.mem_map] at hx hy
      obtain ⟨_, _, rfl⟩ := hx
      obtain ⟨_, _, rfl⟩ := hy
      exact Or.inl hab
  · intro s i
    unfold ghosts itemsFor
    simp only [List.mem_flatMap, List.mem_range, List.mem_map, List.mem_filter, decide_eq_true_eq,
      Prod.mk.injEq]
    constructor
    · rintro ⟨s', hs', i', ⟨_, hi⟩, rfl, rfl⟩
      exact ⟨hs', hi⟩
    · rintro ⟨hs, hi⟩
      refine ⟨s, hs, i, ⟨?_, hi⟩, rfl, rfl⟩
      by_contra hc
      rw [List.getElem?_eq_none (by omega)] at hi
      cases hi
  · intro g s i idx hg hidx hig
    exact C19_exchange_packed hR hpos U hord hr hg hidx hig

/-! ### C21: the guard of the code does not exclude all bad sizes -/

/-- The guard (L45) accepts a ghost count larger than the x size of the block if it is not larger than
the y size; the region of the first face is then not in the block. -/
theorem C21_guard_accepts_bad_size :
    (∃ bx by' bz gc mask, (gc ≤ bx ∨ gc ≤ by') ∧ maskCells bx by' bz gc mask = .outOfBounds) :=
  ⟨1, 2, 1, 2, 1, by decide, by
    have h : maskCells 1 2 1 2 1 = if (1 : ℕ) = 0 then .abort else .outOfBounds := by
      unfold maskCells
      rw [if_pos (by decide), if_neg (by decide)]
      rfl
    rw [h]; rfl⟩

/-! ### Examples -/

/-- Three ranks; rank 0 sends octants 1 and 0 to rank 1 and octant 1 to rank 2, rank 2 sends octant 0
to rank 1. -/
def exSend (s r : ℕ) : List ℕ :=
  if s = 0 ∧ r = 1 then [1, 0] else if s = 0 ∧ r = 2 then [1] else if s = 2 ∧ r = 1 then [0] else []

def exShape : List ℕ := [2, 5]

def exU (s : ℕ) (idx : List ℕ) : ℕ := 100 * s + 10 * idx.getD 1 0 + idx.getD 0 0

def exOrders : Orders :=
  ⟨fun s => List.range (packSize (ofMap 3 exSend) 1 exShape s),
   fun s => List.range ((ofMap 3 exSend).sz s s * eltsFrom 1 exShape 0),
   fun s => (List.range (((ofMap 3 exSend).nbGhosts 3 s - (ofMap 3 exSend).sz s s) *
     eltsFrom 1 exShape 0)).reverse⟩

theorem exOrders_ok : exOrders.OK (ofMap 3 exSend) 3 1 exShape :=
  ⟨fun _ _ => List.Perm.refl _, fun _ _ => List.Perm.refl _, fun _ _ => List.reverse_perm _⟩

example : ghosts 3 exSend 1 = [(0, 1), (0, 0), (2, 0)] := by decide

example : exchangePacked (ofMap 3 exSend) 3 1 exShape exU exOrders 1 [1, 2] = some 201 :=
  C19_exchange_packed (ofMap_realises 3 exSend) (by decide) exU exOrders_ok (by decide)
    (g := 2) (s := 2) (o := 0) (by decide)
    ⟨by decide, by intro k n i hk hn hi; match k with
      | 0 => simp [exShape] at hn hi; omega
      | 1 => omega
      | k + 2 => simp at hi⟩ (by decide)

example : exchangeContiguous (ofMap 3 exSend) 3 1 exShape exU exOrders 1 [1, 0] = some 11 := by
  decide +kernel

/-- Every rank adds its ghost values to the owners: octant 1 of rank 0 has two ghost copies. -/
example : ((reduceGhosts (ofMap 3 exSend) 3 1 exShape (fun _ _ => 1) exU
    (fun r => List.range ((ofMap 3 exSend).nbGhosts 3 r * 2))
    (fun s => List.range (((ofMap 3 exSend).iOcts s).length * 2)) 0).map fun U => U [1, 1]) =
    some (1 + exU 1 [1, 0] + exU 2 [1, 0]) := by decide +kernel

/-- Items of rank 0 go to ranks 1, 0, 1; items of rank 1 go to rank 1. -/
example : ∃ C, ofDomains 2 (fun s => if s = 0 then [1, 0, 1] else [1]) = some C :=
  C22_defined_iff.2 (by
    intro s hs t ht
    have : s = 0 ∨ s = 1 := by omega
    rcases this with rfl | rfl <;> simp at ht <;> omega)

example : maskCells 4 4 1 2 0b001 = .cells [0, 1, 4, 5, 8, 9, 12, 13] := by rfl

example : ∃ l, maskCells 4 4 4 2 0b100101 = .cells l ∧ l.Nodup ∧ l.length = 56 :=
  ⟨_, rfl, by decide +kernel, by decide +kernel⟩

end Verif.Comm
