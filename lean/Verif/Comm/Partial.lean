import Verif.Comm.Props

/-!
# `core/src/mpi/GhostCommunicator_partial_blocks.{h,cpp}`: exchange and reduction of parts of blocks

`send s r` is the ghost map of the mesh: the pairs (octant, face mask) that rank `s` sends to rank `r`.
`cells mask` is row `mask` of `facemask_iCells`. Field data of a rank are functions of octant, cell and
field; ghosts are separate arrays. No 32-bit overflow.
-/

namespace Verif.Comm

open Finset

/-- `utils/mpi/MpiComm_mpi.tpp` L114-132 `MPI_Alltoallv`: buffers are packed by rank. `none` if
a receive count is not the send count. -/
def alltoallv {β : Type} (P : ℕ) (bufs : ℕ → List β) (ssz rsz : ℕ → ℕ → ℕ) (r : ℕ) : Option (List β) :=
  if (List.range P).all fun s => ssz s r = rsz r s then
    some ((List.range P).flatMap fun s => ((bufs s).drop (psum (ssz s) r)).take (ssz s r))
  else none

/-- A list of (octant, face mask), octants by position in the list. -/
abbrev PMap := ℕ → ℕ → List (ℕ × ℕ)

section
variable (cells : ℕ → List ℕ) (nv P : ℕ) (send : PMap)

/-- `.cpp` L125-149: masks of the ghosts of rank `r`. -/
def recvMasks (r : ℕ) : Option (List ℕ) :=
  alltoallv P (fun s => (List.range P).flatMap fun r => (send s r).map Prod.snd)
    (fun s r => (send s r).length) (fun r s => (send s r).length) r

/-- `.cpp` L164-204: `send_iOct`, `send_iCell` of rank `s`. -/
def sendCells (s : ℕ) : List (ℕ × ℕ) :=
  ((List.range P).flatMap (send s)).flatMap fun om => (cells om.2).map fun c => (om.1, c)

/-- `.cpp` L164-184: `m_send_cell_count[r]` of rank `s`. -/
def sendCount (s r : ℕ) : ℕ := ((send s r).map fun om => (cells om.2).length).sum

/-- `.cpp` L208-254: `recv_iOcts`, `recv_iCell` for the masks `masks`. -/
def recvCells (masks : List ℕ) : List (ℕ × ℕ) :=
  masks.zipIdx.flatMap fun mg => (cells mg.1).map fun c => (mg.2, c)

/-- `.cpp` L213-232: `m_recv_cell_count[s]` of rank `r`: cells of the ghosts from rank `s`, which are
at positions `[psum, psum + ghostmap_recv_sizes[s])` of the masks. -/
def recvCount (r s : ℕ) : ℕ :=
  ((((recvMasks P send r).getD []).drop (psum (fun s => (send s r).length) s)).take
    (send s r).length |>.map fun m => (cells m).length).sum

variable {α : Type}

/-- `.h` L56-72, L136-152: the send buffer for a list of (octant, cell). -/
def packCells (l : List (ℕ × ℕ)) (U : ℕ → ℕ → ℕ → α) : List α :=
  (List.range (l.length * nv)).filterMap fun ip =>
    (l[ip / nv]?).map fun oc => U oc.1 oc.2 (ip % nv)

/-- `.h` L91-105: one iteration of the unpacking kernel; `none` if it reads outside an array. -/
def unpackCell (l : List (ℕ × ℕ)) (buf : List α) (ip : ℕ) : Option ((ℕ × ℕ × ℕ) × α) :=
  match l[ip / nv]?, buf[ip]? with
  | some gc, some x => some ((gc.1, gc.2, ip % nv), x)
  | _, _ => none

/-- The unpacking kernel in the given order; `none` if an iteration reads outside an array. -/
def unpackCells (l : List (ℕ × ℕ)) (buf : List α) (order : List ℕ) : Option (List ((ℕ × ℕ × ℕ) × α)) :=
  if order.all fun ip => (unpackCell nv l buf ip).isSome then some (order.filterMap (unpackCell nv l buf))
  else none

/-- `.h` L34-106 `exchange_ghosts` on rank `r`: ghosts afterwards, `V` are the ghosts before. -/
def partialExchange (U : ℕ → ℕ → ℕ → ℕ → α) (V : ℕ → ℕ → ℕ → α) (order : List ℕ) (r : ℕ) :
    Option (ℕ → ℕ → ℕ → α) := do
  let masks ← recvMasks P send r
  let buf ← alltoallv P (fun s => packCells nv (sendCells cells P send s) (U s))
    (fun s r => sendCount cells send s r * nv) (fun r s => recvCount cells P send r s * nv) r
  let ws ← unpackCells nv (recvCells cells masks) buf order
  return fun g c v => (afterWrites ws (g, c, v)).getD (V g c v)

/-- `.h` L111-185 `reduce_ghosts` on rank `s`: local values afterwards. -/
def partialReduce [Add α] (U : ℕ → ℕ → ℕ → ℕ → α) (V : ℕ → ℕ → ℕ → ℕ → α) (order : List ℕ) (s : ℕ) :
    Option (ℕ → ℕ → ℕ → α) := do
  let buf ← alltoallv P (fun r => packCells nv (recvCells cells ((recvMasks P send r).getD [])) (V r))
    (fun r s => recvCount cells P send r s * nv) (fun s r => sendCount cells send s r * nv) s
  let ws ← unpackCells nv (sendCells cells P send s) buf order
  return ws.foldl (fun W w => fun o c v => if w.1 = (o, c, v) then W o c v + w.2 else W o c v) (U s)

end

/-! ### Specification -/

/-- Ghosts of rank `r`: (owner, octant, mask), by owner and in the order of the owner's list. -/
def pghosts (P : ℕ) (send : PMap) (r : ℕ) : List (ℕ × ℕ × ℕ) :=
  (List.range P).flatMap fun s => (send s r).map fun om => (s, om.1, om.2)

/-! ### Lists -/

theorem segment {β : Type} (f : ℕ → List β) {P r : ℕ} (hr : r < P) {sz : ℕ → ℕ}
    (hsz : ∀ q < P, sz q = (f q).length) :
    (((List.range P).flatMap f).drop (psum sz r)).take (sz r) = f r := by
  have hlen : ∀ n ≤ P, ((List.range n).flatMap f).length = psum sz n := by
    intro n hn
    rw [length_flatMap_range]
    exact psum_congr fun i hi => (hsz i (by omega)).symm
  have hsplit : List.range P = List.range r ++ (List.range (P - r)).map (r + ·) := by
    rw [← List.range_add]; congr 1; omega
  have h0 : P - r = (P - r - 1) + 1 := by omega
  rw [hsplit, List.flatMap_append, List.drop_append_of_le_length (by rw [hlen r hr.le]),
    List.drop_eq_nil_of_le (by rw [hlen r hr.le]), List.nil_append, h0, List.range_succ_eq_map,
    List.map_cons, List.flatMap_cons, Nat.add_zero, hsz r hr, List.take_left']
  rfl

theorem pack_eq {α : Type} (nv : ℕ) (l : List (ℕ × ℕ)) (U : ℕ → ℕ → ℕ → α) :
    packCells nv l U = l.flatMap fun oc => (List.range nv).map fun v => U oc.1 oc.2 v := by
  unfold packCells
  rcases Nat.eq_zero_or_pos nv with rfl | h0
  · simp
  induction l with
  | nil => simp
  | cons a l ih =>
    rw [List.length_cons, Nat.succ_mul, Nat.add_comm, List.range_add, List.filterMap_append,
      List.flatMap_cons]
    congr 1
    · rw [← List.filterMap_eq_map]
      apply List.filterMap_congr
      intro i hi
      rw [List.mem_range] at hi
      rw [Nat.div_eq_of_lt hi, Nat.mod_eq_of_lt hi]
      rfl
    · rw [← ih, List.filterMap_map]
      apply List.filterMap_congr
      intro i _
      simp only [Function.comp]
      rw [Nat.add_div_left _ h0, Nat.add_mod_left, List.getElem?_cons_succ]

theorem getElem?_flatMap_nv {β γ : Type} {nv : ℕ} (h0 : 0 < nv) (l : List β) (h : β → ℕ → γ) {i : ℕ}
    (hi : i < l.length * nv) :
    (l.flatMap fun x => (List.range nv).map (h x))[i]? = (l[i / nv]?).map fun x => h x (i % nv) := by
  induction l generalizing i with
  | nil => simp at hi
  | cons a l ih =>
    rw [List.flatMap_cons]
    rcases Nat.lt_or_ge i nv with h1 | h1
    · rw [List.getElem?_append_left (by simpa using h1), Nat.div_eq_of_lt h1, Nat.mod_eq_of_lt h1]
      simp [h1]
    · obtain ⟨j, rfl⟩ := Nat.exists_eq_add_of_le h1
      rw [List.getElem?_append_right (by simp), Nat.add_div_left _ h0, Nat.add_mod_left,
        List.getElem?_cons_succ, ← ih]
      · simp
      · rw [List.length_cons, Nat.succ_mul] at hi
        omega

theorem filterMap_range {β : Type} (l : List β) : (List.range l.length).filterMap (l[·]?) = l := by
  induction l with
  | nil => rfl
  | cons a l ih =>
    rw [List.length_cons, List.range_succ_eq_map, List.filterMap_cons]
    simp only [List.getElem?_cons_zero, List.filterMap_map]
    congr 1

/-- Unpacking: the writes, if the buffer holds `f` of the entries. -/
theorem unpack_eq {α β : Type} (nv : ℕ) (l : List ((ℕ × ℕ) × β)) (f : β → ℕ → α) {order : List ℕ}
    (hord : order.Perm (List.range (l.length * nv))) :
    ∃ ws, unpackCells nv (l.map Prod.fst) (l.flatMap fun x => (List.range nv).map (f x.2)) order = some ws ∧
      ws.Perm (l.flatMap fun x => (List.range nv).map fun v => ((x.1.1, x.1.2, v), f x.2 v)) := by
  set res := (l.flatMap fun x => (List.range nv).map fun v => ((x.1.1, x.1.2, v), f x.2 v)) with hres
  have hlen : res.length = l.length * nv := by
    rw [hres]
    simp [List.length_flatMap]
  have hu : ∀ i ∈ order, unpackCell nv (l.map Prod.fst)
      (l.flatMap fun x => (List.range nv).map (f x.2)) i = res[i]? := by
    intro i hi
    have hi := List.mem_range.1 (hord.mem_iff.1 hi)
    have h0 : 0 < nv := by
      rcases Nat.eq_zero_or_pos nv with rfl | h0
      · simp at hi
      · exact h0
    have hd : i / nv < l.length := Nat.div_lt_of_lt_mul (by rw [Nat.mul_comm]; exact hi)
    unfold unpackCell
    rw [getElem?_flatMap_nv h0 l (fun x => f x.2) hi, hres,
      getElem?_flatMap_nv h0 l (fun x v => ((x.1.1, x.1.2, v), f x.2 v)) hi, List.getElem?_map,
      List.getElem?_eq_getElem hd]
    rfl
  refine ⟨order.filterMap (res[·]?), ?_, ?_⟩
  · unfold unpackCells
    rw [if_pos, List.filterMap_congr hu]
    rw [List.all_eq_true]
    intro i hi
    rw [hu i hi, List.getElem?_eq_getElem (by
      rw [hlen]; exact List.mem_range.1 (hord.mem_iff.1 hi))]
    rfl
  · refine (hord.filterMap _).trans ?_
    rw [← hlen, filterMap_range]

/-! ### The lists of the communicator -/

section
variable {cells : ℕ → List ℕ} {nv P : ℕ} {send : PMap}

theorem recvMasks_eq {r : ℕ} (hr : r < P) :
    recvMasks P send r = some ((pghosts P send r).map fun x => x.2.2) := by
  unfold recvMasks alltoallv pghosts
  rw [if_pos (by simp), List.map_flatMap]
  congr 1
  apply List.flatMap_congr
  intro s _
  have := segment (fun r => (send s r).map Prod.snd) hr (sz := fun r => (send s r).length) (by simp)
  simp only at this ⊢
  rw [this]
  simp

theorem sum_take_eq_count {s r : ℕ} (hs : s < P) (hr : r < P) :
    recvCount cells P send r s = sendCount cells send s r := by
  unfold recvCount sendCount
  rw [recvMasks_eq hr]
  unfold pghosts
  rw [Option.getD_some, List.map_flatMap,
    segment (fun s => ((send s r).map fun om => (s, om.1, om.2)).map fun x => x.2.2) hs
      (sz := fun s => (send s r).length) (by simp)]
  simp [Function.comp_def]

/-- The entries of the send list of rank `s`, one part per target. -/
theorem sendCells_eq (s : ℕ) : sendCells cells P send s =
    (List.range P).flatMap fun r => (send s r).flatMap fun om => (cells om.2).map fun c => (om.1, c) := by
  unfold sendCells
  rw [List.flatMap_assoc]

/-- The values that rank `r` receives, one entry per cell: where it goes in the ghosts of `r`
(ghost, cell) and where it comes from (owner, octant, cell). -/
def entries (cells : ℕ → List ℕ) (P : ℕ) (send : PMap) (r : ℕ) : List ((ℕ × ℕ) × ℕ × ℕ × ℕ) :=
  (pghosts P send r).zipIdx.flatMap fun x => (cells x.1.2.2).map fun c => ((x.2, c), x.1.1, x.1.2.1, c)

theorem recvCells_eq (r : ℕ) : recvCells cells ((pghosts P send r).map fun x => x.2.2) =
    (entries cells P send r).map Prod.fst := by
  unfold recvCells entries
  rw [List.zipIdx_map, List.flatMap_map, List.map_flatMap]
  simp [Function.comp_def]

variable {α : Type}

theorem buffer_eq (U : ℕ → ℕ → ℕ → ℕ → α) {r : ℕ} (hr : r < P) :
    alltoallv P (fun s => packCells nv (sendCells cells P send s) (U s))
      (fun s r => sendCount cells send s r * nv) (fun r s => recvCount cells P send r s * nv) r =
    some ((entries cells P send r).flatMap fun x => (List.range nv).map fun v =>
      U x.2.1 x.2.2.1 x.2.2.2 v) := by
  unfold alltoallv
  rw [if_pos]
  · congr 1
    unfold entries pghosts
    rw [List.flatMap_assoc]
    simp only [List.flatMap_map]
    rw [← List.flatMap_map (f := Prod.fst) (g := fun x : ℕ × ℕ × ℕ =>
      (cells x.2.2).flatMap fun c => (List.range nv).map fun v => U x.1 x.2.1 c v),
      List.zipIdx_map_fst, List.flatMap_assoc]
    apply List.flatMap_congr
    intro s _
    rw [pack_eq, sendCells_eq, List.flatMap_assoc]
    rw [segment (fun r => ((send s r).flatMap fun om => (cells om.2).map fun c => (om.1, c)).flatMap
      fun oc => (List.range nv).map fun v => U s oc.1 oc.2 v) hr (sz := fun r => sendCount cells send s r * nv)]
    · rw [List.flatMap_assoc, List.flatMap_map]
      simp only [List.flatMap_map]
    · intro q _
      unfold sendCount
      rw [List.length_flatMap]
      simp [List.length_flatMap, Function.comp_def]
  · rw [List.all_eq_true]
    intro s hs
    rw [decide_eq_true_eq]
    simp only
    rw [sum_take_eq_count (List.mem_range.1 hs) hr]

theorem length_entries (r : ℕ) : (entries cells P send r).length =
    ((pghosts P send r).map fun x => (cells x.2.2).length).sum := by
  unfold entries
  rw [List.length_flatMap]
  simp only [List.length_map]
  conv_rhs => rw [← List.zipIdx_map_fst 0 (pghosts P send r), List.map_map]
  rfl

/-- **C58**: after a partial exchange, in every ghost octant the cells listed for its face mask hold the
values of the owner and the other cells are unchanged. -/
theorem C58_partial_exchange (U : ℕ → ℕ → ℕ → ℕ → α) (V : ℕ → ℕ → ℕ → α) {order : List ℕ} {r : ℕ}
    (hr : r < P)
    (hord : order.Perm (List.range (((pghosts P send r).map fun x => (cells x.2.2).length).sum * nv))) :
    ∃ W, partialExchange cells nv P send U V order r = some W ∧
      ∀ g s o m c v, (pghosts P send r)[g]? = some (s, o, m) → v < nv →
        W g c v = if c ∈ cells m then U s o c v else V g c v := by
  rw [← length_entries] at hord
  obtain ⟨ws, h1, h2⟩ := unpack_eq nv (entries cells P send r) (fun y v => U y.1 y.2.1 y.2.2 v) hord
  refine ⟨fun g c v => (afterWrites ws (g, c, v)).getD (V g c v), ?_, ?_⟩
  · unfold partialExchange
    rw [recvMasks_eq hr, buffer_eq U hr]
    simp only [Option.bind_eq_bind, Option.bind_some, recvCells_eq, h1]
    rfl
  · intro g s o m c v hg hv
    have hmem : ∀ w, w ∈ ws ↔ ∃ g' s' o' m' c' v', (pghosts P send r)[g']? = some (s', o', m') ∧
        c' ∈ cells m' ∧ v' < nv ∧ w = ((g', c', v'), U s' o' c' v') := by
      intro w
      rw [h2.mem_iff]
      unfold entries
      simp only [List.mem_flatMap, List.mem_map, List.mem_range, List.mem_zipIdx_iff_getElem?]
      constructor
      · rintro ⟨x, ⟨⟨⟨s', o', m'⟩, g'⟩, hx, c', hc', rfl⟩, v', hv', rfl⟩
        exact ⟨g', s', o', m', c', v', hx, hc', hv', rfl⟩
      · rintro ⟨g', s', o', m', c', v', hx, hc', hv', rfl⟩
        exact ⟨_, ⟨⟨⟨s', o', m'⟩, g'⟩, hx, c', hc', rfl⟩, v', hv', rfl⟩
    simp only
    split
    · rename_i hc
      rw [afterWrites_unique (v := U s o c v)]
      · rfl
      · exact ⟨_, (hmem _).2 ⟨g, s, o, m, c, v, hg, hc, hv, rfl⟩, rfl⟩
      · intro w hw haddr
        obtain ⟨g', s', o', m', c', v', hx, _, _, rfl⟩ := (hmem w).1 hw
        simp only [Prod.mk.injEq] at haddr
        obtain ⟨rfl, rfl, rfl⟩ := haddr
        rw [hx] at hg
        cases hg
        rfl
    · rename_i hc
      rw [afterWrites_none]
      · rfl
      · intro w hw haddr
        obtain ⟨g', s', o', m', c', v', hx, hc', _, rfl⟩ := (hmem w).1 hw
        simp only [Prod.mk.injEq] at haddr
        obtain ⟨rfl, rfl, rfl⟩ := haddr
        rw [hx] at hg
        cases hg
        exact hc hc'

/-! ### Reduction -/

theorem zipIdx_flatMap_range {β : Type} (f : ℕ → List β) (n : ℕ) :
    ((List.range n).flatMap f).zipIdx =
      (List.range n).flatMap fun s => (f s).zipIdx (psum (fun s => (f s).length) s) := by
  induction n with
  | zero => rfl
  | succ n ih =>
    rw [List.range_succ, List.flatMap_append, List.flatMap_append, List.zipIdx_append, ih]
    simp only [List.flatMap_cons, List.flatMap_nil, List.append_nil, Nat.zero_add,
      length_flatMap_range]

/-- The values that rank `s` receives in a reduction: where it goes (octant, cell) and where
it comes from (rank, ghost, cell). -/
def backEntries (cells : ℕ → List ℕ) (P : ℕ) (send : PMap) (s : ℕ) : List ((ℕ × ℕ) × ℕ × ℕ × ℕ) :=
  (List.range P).flatMap fun r =>
    ((send s r).zipIdx (psum (fun s => (send s r).length) s)).flatMap fun x =>
      (cells x.1.2).map fun c => ((x.1.1, c), r, x.2, c)

theorem sendCells_eq_back (s : ℕ) :
    sendCells cells P send s = (backEntries cells P send s).map Prod.fst := by
  rw [sendCells_eq]
  unfold backEntries
  rw [List.map_flatMap]
  apply List.flatMap_congr
  intro r _
  rw [List.map_flatMap]
  simp only [List.map_map, Function.comp_def]
  rw [← List.flatMap_map (f := Prod.fst) (g := fun om : ℕ × ℕ => (cells om.2).map fun c => (om.1, c)),
    List.zipIdx_map_fst]

theorem backBuffer_eq (V : ℕ → ℕ → ℕ → ℕ → α) {s : ℕ} (hs : s < P) :
    alltoallv P (fun r => packCells nv (recvCells cells ((recvMasks P send r).getD [])) (V r))
      (fun r s => recvCount cells P send r s * nv) (fun s r => sendCount cells send s r * nv) s =
    some ((backEntries cells P send s).flatMap fun x => (List.range nv).map fun v =>
      V x.2.1 x.2.2.1 x.2.2.2 v) := by
  unfold alltoallv
  rw [if_pos]
  · congr 1
    unfold backEntries
    rw [List.flatMap_assoc]
    apply List.flatMap_congr
    intro r hr
    rw [List.mem_range] at hr
    set F : ℕ → List α := fun s' => ((send s' r).zipIdx (psum (fun s => (send s r).length) s')).flatMap
      fun x => (cells x.1.2).flatMap fun c => (List.range nv).map fun v => V r x.2 c v with hF
    have hpack : packCells nv (recvCells cells ((recvMasks P send r).getD [])) (V r) =
        (List.range P).flatMap F := by
      rw [recvMasks_eq hr, Option.getD_some, pack_eq, recvCells_eq]
      unfold entries pghosts
      rw [zipIdx_flatMap_range, List.flatMap_assoc, List.map_flatMap, List.flatMap_assoc]
      apply List.flatMap_congr
      intro s' _
      rw [hF]
      simp only [List.zipIdx_map, List.flatMap_map, List.map_flatMap, List.flatMap_assoc, List.length_map,
        Prod.map_fst, Prod.map_snd, id]
    have hseg := segment F hs (sz := fun s => recvCount cells P send r s * nv) (by
      intro q hq
      rw [sum_take_eq_count hq hr, hF]
      unfold sendCount
      simp only [List.length_flatMap, List.length_map, List.length_range, List.map_const', List.sum_replicate,
        nsmul_eq_mul, Nat.cast_id]
      conv_lhs => rw [← List.zipIdx_map_fst (psum (fun s => (send s r).length) q) (send q r), List.map_map]
      rw [List.sum_map_mul_right]
      rfl)
    simp only
    rw [hpack, hseg, hF, List.flatMap_assoc]
    simp only [List.flatMap_map]
  · rw [List.all_eq_true]
    intro r hr
    rw [decide_eq_true_eq]
    simp only
    rw [sum_take_eq_count hs (List.mem_range.1 hr)]

theorem sum_flatMap' {β γ : Type} [AddCommMonoid α] (l : List β) (f : β → List γ) (h : γ → α) :
    ((l.flatMap f).map h).sum = (l.map fun x => ((f x).map h).sum).sum := by
  induction l with
  | nil => rfl
  | cons a l ih => rw [List.flatMap_cons, List.map_append, List.sum_append, ih, List.map_cons, List.sum_cons]

theorem sum_single [AddCommMonoid α] {β : Type} [DecidableEq β] {l : List β} (hl : l.Nodup) (b : β) (x : α) :
    (l.map fun a => if a = b then x else 0).sum = if b ∈ l then x else 0 := by
  induction l with
  | nil => simp
  | cons a l ih =>
    rw [List.nodup_cons] at hl
    rw [List.map_cons, List.sum_cons, ih hl.2]
    by_cases h : a = b
    · subst h
      simp [hl.1]
    · have : ¬ b = a := fun e => h e.symm
      simp [h, this]

theorem foldl_add' [AddCommMonoid α] (ws : List ((ℕ × ℕ × ℕ) × α)) (U : ℕ → ℕ → ℕ → α) (o c v : ℕ) :
    (ws.foldl (fun (W : ℕ → ℕ → ℕ → α) w => fun o c v => if w.1 = (o, c, v) then W o c v + w.2 else W o c v) U)
      o c v = U o c v + (ws.map fun w => if w.1 = (o, c, v) then w.2 else 0).sum := by
  induction ws generalizing U with
  | nil => simp
  | cons w ws ih =>
    rw [List.foldl_cons, ih, List.map_cons, List.sum_cons, ← add_assoc]
    congr 1
    split <;> simp

theorem length_backEntries (s : ℕ) : (backEntries cells P send s).length =
    (((List.range P).flatMap (send s)).map fun om => (cells om.2).length).sum := by
  have := congrArg List.length (sendCells_eq_back (cells := cells) (P := P) (send := send) s)
  rw [List.length_map] at this
  rw [← this]
  unfold sendCells
  rw [List.length_flatMap]
  simp

theorem list_sum_range' [AddCommMonoid α] (F : ℕ → α) (n : ℕ) :
    ((List.range n).map F).sum = ∑ x ∈ range n, F x := list_sum_range F n

/-- **C58**: after a partial reduction every cell of an owner holds its value plus the values of
the ghost copies of this cell on all ranks where it is one of the cells listed for the ghost. -/
theorem C58_partial_reduce [AddCommMonoid α] (hcells : ∀ m, (cells m).Nodup)
    (U V : ℕ → ℕ → ℕ → ℕ → α) {order : List ℕ} {s : ℕ} (hs : s < P)
    (hord : order.Perm (List.range
      ((((List.range P).flatMap (send s)).map fun om => (cells om.2).length).sum * nv))) :
    ∃ U', partialReduce cells nv P send U V order s = some U' ∧
      ∀ o c, ∀ v < nv, U' o c v = U s o c v + ∑ r ∈ range P, ((pghosts P send r).zipIdx.map fun x =>
        if x.1.1 = s ∧ x.1.2.1 = o ∧ c ∈ cells x.1.2.2 then V r x.2 c v else 0).sum := by
  rw [← length_backEntries] at hord
  obtain ⟨ws, h1, h2⟩ := unpack_eq nv (backEntries cells P send s) (fun y v => V y.1 y.2.1 y.2.2 v) hord
  refine ⟨ws.foldl (fun (W : ℕ → ℕ → ℕ → α) w => fun o c v =>
    if w.1 = (o, c, v) then W o c v + w.2 else W o c v) (U s), ?_, ?_⟩
  · unfold partialReduce
    rw [backBuffer_eq V hs]
    simp only [Option.bind_eq_bind, Option.bind_some, sendCells_eq_back, h1]
    rfl
  · intro o c v hv
    rw [foldl_add', (h2.map _).sum_eq]
    congr 1
    unfold backEntries
    rw [sum_flatMap', sum_flatMap', list_sum_range]
    refine sum_congr rfl fun r _ => ?_
    rw [sum_flatMap']
    unfold pghosts
    rw [zipIdx_flatMap_range, sum_flatMap', list_sum_range, sum_eq_single s]
    · rw [List.zipIdx_map, List.map_map]
      simp only [List.length_map]
      congr 1
      apply List.map_congr_left
      rintro ⟨⟨o', m⟩, g⟩ _
      simp only [Function.comp, Prod.map, id, true_and, List.map_map]
      have : ∀ c', ((List.range nv).map fun v' => if (o', c', v') = (o, c, v) then V r g c' v' else 0).sum =
          if c' = c then (if o' = o then V r g c v else 0) else 0 := by
        intro c'
        by_cases hc : c' = c
        · subst hc
          by_cases ho : o' = o
          · subst ho
            have e := sum_single (List.nodup_range (n := nv)) v (V r g c' v)
            rw [if_pos (List.mem_range.2 hv)] at e
            simp only [Prod.mk.injEq, true_and, if_true]
            rw [← e]
            congr 1
            apply List.map_congr_left
            intro v' _
            by_cases hv' : v' = v
            · rw [hv']
            · rw [if_neg hv', if_neg hv']
          · simp [ho]
        · simp [hc]
      have e := sum_single (hcells m) c (if o' = o then V r g c v else 0)
      have e2 : (((cells m).map fun c' => if c' = c then (if o' = o then V r g c v else 0) else 0).sum) =
          if o' = o ∧ c ∈ cells m then V r g c v else 0 := by
        rw [e]
        by_cases h1 : o' = o <;> by_cases h2 : c ∈ cells m <;> simp [h1, h2]
      rw [← e2]
      congr 1
      apply List.map_congr_left
      intro c' _
      rw [← this c']
      simp [Function.comp_def]
    · intro s' _ hs'
      rw [List.zipIdx_map, List.map_map]
      apply List.sum_eq_zero
      intro y hy
      rw [List.mem_map] at hy
      obtain ⟨x, _, rfl⟩ := hy
      simp [hs']
    · intro h
      exact absurd (mem_range.2 hs) h

end

/-! ### Examples -/

/-- Two ranks; rank 0 sends octant 3 with the lower x face and octant 1 with both x faces. -/
def exPMap : PMap := fun s r => if s = 0 ∧ r = 1 then [(3, 1), (1, 3)] else []

def exCells (m : ℕ) : List ℕ := if m = 1 then [0, 3] else if m = 3 then [0, 3, 2, 5] else []

example : pghosts 2 exPMap 1 = [(0, 3, 1), (0, 1, 3)] := by decide

/-- Cells 0 and 3 of ghost 0 are received, cell 1 keeps its value. -/
example : ((partialExchange exCells 2 2 exPMap (fun s o c v => 1000 * s + 100 * o + 10 * c + v)
    (fun _ _ _ => 7) (List.range 12) 1).map fun W => (W 0 3 1, W 0 1 1, W 1 5 0)) =
    some (331, 7, 150) := by decide +kernel

example : ((partialReduce exCells 2 2 exPMap (fun _ _ _ _ => 1)
    (fun r g c v => 1000 * r + 100 * g + 10 * c + v) (List.range 12) 0).map fun W =>
      (W 3 3 1, W 3 1 1, W 1 5 0)) = some (1032, 1, 1151) := by decide +kernel

end Verif.Comm
