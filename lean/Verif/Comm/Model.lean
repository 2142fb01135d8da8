import Mathlib.Data.List.Basic
import Mathlib.Algebra.Group.Basic

/-!
# Model of `core/src/mpi/ViewCommunicator.h`, `.cpp`

A Kokkos view of rank `n` is a function on multi-indices (lists of length `n`). Contents of all ranks are
functions of the rank. `shape` holds the extents of a view; the extent of the distributed dimension
`pos` is never used. Kernels (`parallel_for`) take the order in which their iterations run; the
iterations of one kernel are one after another in that order. No 32-bit overflow of indices.
-/

namespace Verif.Comm

/-- `core/src/userdata_utils.h` L9-53 `get_U<pos>(U, iOct, elt)`: the multi-index that is accessed;
`k` is the current dimension. -/
def getUIdx (pos iOct : ℕ) : List ℕ → ℕ → ℕ → List ℕ
  | [], _, _ => []
  | n :: ext, k, elt =>
    if k = pos then iOct :: getUIdx pos iOct ext (k + 1) elt
    else elt % n :: getUIdx pos iOct ext (k + 1) (elt / n)

/-- `ViewCommunicator.h` L228-231: number of values per octant; `k` is the current dimension. -/
def eltsFrom (pos : ℕ) : List ℕ → ℕ → ℕ
  | [], _ => 1
  | n :: ext, k => (if k = pos then 1 else n) * eltsFrom pos ext (k + 1)

/-- L249-252: extents of a buffer, the distributed dimension moved to the right. -/
def packShape (pos : ℕ) (shape : List ℕ) (count : ℕ) : List ℕ := shape.eraseIdx pos ++ [count]

/-- Address of a multi-index in a `LayoutLeft` view. -/
def linLeft : List ℕ → List ℕ → ℕ
  | n :: ext, i :: idx => i + n * linLeft ext idx
  | _, _ => 0

/-- Sum of `f` over ranks below `r`, as accumulated by the loops L234-239 and L186-199. -/
def psum (f : ℕ → ℕ) : ℕ → ℕ
  | 0 => 0
  | r + 1 => psum f r + f r

/-- L186-199 `get_subviews`: first octant of the part of `rank`; the part of rank `skip` is left out
(`none` for the argument -1). -/
def subOffset (f : ℕ → ℕ) (skip : Option ℕ) : ℕ → ℕ
  | 0 => 0
  | r + 1 => subOffset f skip r + (if some r = skip then 0 else f r)

/-- Memory after a sequence of writes (the last write to an address counts). -/
def afterWrites {A α : Type} [DecidableEq A] (ws : List (A × α)) (a : A) : Option α :=
  (ws.reverse.find? fun w => w.1 = a).map Prod.snd

/-- The members `send_sizes` and `send_iOcts` of all ranks. `sz s r` is `send_sizes(r)` on rank `s`. -/
structure Comm where
  sz : ℕ → ℕ → ℕ
  iOcts : ℕ → List ℕ

/-- `ViewCommunicator.cpp` L86-137: communicator from lists of octants to send to each rank
(`send s r`: from rank `s` to rank `r`). -/
def ofMap (P : ℕ) (send : ℕ → ℕ → List ℕ) : Comm where
  sz s r := (send s r).length
  iOcts s := (List.range P).flatMap (send s)

/-- `ViewCommunicator.cpp` L22-28: number of items for each rank, by atomic increments. -/
def countSizes (domains : List ℕ) (r : ℕ) : ℕ :=
  domains.foldl (fun n x => if x = r then n + 1 else n) 0

/-- `ViewCommunicator.cpp` L37-47: one scan, the items for `rank` in increasing order. -/
def itemsFor (domains : List ℕ) (rank : ℕ) : List ℕ :=
  (List.range domains.length).filter fun i => domains[i]? = some rank

/-- `ViewCommunicator.cpp` L7-59 `private_init_domains`: `domains s` are the target ranks of the items
of rank `s`. `none` if a target is not a rank (write outside `send_sizes`, L26). -/
def ofDomains (P : ℕ) (domains : ℕ → List ℕ) : Option Comm :=
  if (List.range P).all fun s => (domains s).all fun x => decide (x < P) then
    some {
      sz := fun s r => countSizes (domains s) r
      iOcts := fun s => (List.range P).flatMap fun r =>
        if countSizes (domains s) r > 0 then itemsFor (domains s) r else [] }
  else none

/-- `ViewCommunicator.cpp` L54, L71-82: `recv_sizes(s)` on rank `r`, by `MPI_Alltoall`. -/
def Comm.rsz (C : Comm) (r s : ℕ) : ℕ := C.sz s r

/-- `ViewCommunicator.cpp` L55-57, L79-81: `nbghosts_recv`. -/
def Comm.nbGhosts (C : Comm) (P r : ℕ) : ℕ := psum (C.rsz r) P

section Exchange

variable {α : Type} (C : Comm) (P pos : ℕ) (shape : List ℕ)

/-- L263: octant at position `iGhost` of the send buffer. -/
def packOrigin (s iGhost : ℕ) : ℕ :=
  (C.iOcts s).getD (if iGhost < psum (C.sz s) s then iGhost else iGhost + C.sz s s) 0

/-- L258-268: writes of the packing kernel on rank `s`, iteration `index`. -/
def packWrite (U : List ℕ → α) (s index : ℕ) : ℕ × α :=
  let elts := eltsFrom pos shape 0
  (linLeft (packShape pos shape ((C.iOcts s).length - C.sz s s))
      (getUIdx (shape.length - 1) (index / elts)
        (packShape pos shape ((C.iOcts s).length - C.sz s s)) 0 (index % elts)),
    U (getUIdx pos (packOrigin C s (index / elts)) shape 0 (index % elts)))

/-- L248-253: number of values in the send buffer of rank `s`. -/
def packSize (s : ℕ) : ℕ := ((C.iOcts s).length - C.sz s s) * eltsFrom pos shape 0

/-- L304-325 and L346: the `j`-th value of the message from rank `s` to rank `r`; `order` is the order
of the packing kernel of rank `s`. -/
def message (U : ℕ → List ℕ → α) (order : ℕ → List ℕ) (s r j : ℕ) : Option α :=
  let elts := eltsFrom pos shape 0
  if j < C.sz s r * elts then
    afterWrites ((order s).map (packWrite C pos shape (U s) s)) (subOffset (C.sz s) (some s) r * elts + j)
  else none

/-- L295, L316-325, L348-354: address `a` of the receive buffer of rank `r`; `skip` as in
`get_subviews`. -/
def received (msg : ℕ → ℕ → Option α) (skip : Option ℕ) (r a : ℕ) : Option α :=
  let elts := eltsFrom pos shape 0
  ((List.range P).filter fun s => s ≠ r).findSome? fun s =>
    let b := subOffset (C.rsz r) skip s * elts
    if b ≤ a ∧ a < b + C.rsz r s * elts then msg s (a - b) else none

/-- L332-343: local copies on rank `r`, iteration `index`. -/
def localWrite (U : List ℕ → α) (r index : ℕ) : List ℕ × α :=
  let elts := eltsFrom pos shape 0
  (getUIdx pos (index / elts + psum (C.rsz r) r) shape 0 (index % elts),
    U (getUIdx pos ((C.iOcts r).getD (index / elts + psum (C.sz r) r) 0) shape 0 (index % elts)))

/-- L358-369: unpacking kernel on rank `r`, iteration `index`; `buf` is the receive buffer (`none` if it
reads a value that was not received). -/
def unpackWrite (buf : ℕ → Option α) (r index : ℕ) : Option (List ℕ × α) :=
  let elts := eltsFrom pos shape 0
  let iRecv := index / elts
  (buf (linLeft (packShape pos shape (C.nbGhosts P r - C.sz r r))
      (getUIdx (shape.length - 1) iRecv (packShape pos shape (C.nbGhosts P r - C.sz r r)) 0
        (index % elts)))).map fun v =>
    (getUIdx pos (if iRecv < psum (C.rsz r) r then iRecv else iRecv + C.sz r r) shape 0
      (index % elts), v)

/-- Orders of the kernels on each rank. -/
structure Orders where
  pack : ℕ → List ℕ
  copy : ℕ → List ℕ
  unpack : ℕ → List ℕ

/-- L205-370 `exchange_ghosts`, when octants are not contiguous (L285-296): ghost array of rank `r`
afterwards; `none` if an entry is neither received nor copied. -/
def exchangePacked (U : ℕ → List ℕ → α) (ord : Orders) (r : ℕ) (idx : List ℕ) : Option α :=
  let buf := received C P pos shape (fun s j => message C pos shape U ord.pack s r j) (some r) r
  let ws := (ord.copy r).map (localWrite C pos shape (U r) r) ++
    (ord.unpack r).filterMap (unpackWrite C P pos shape buf r)
  afterWrites ws idx

/-- L205-370 `exchange_ghosts`, when octants are contiguous (L278-284, `LayoutLeft` and distributed
dimension on the right): messages are received directly in the memory of the ghost array. -/
def exchangeContiguous (U : ℕ → List ℕ → α) (ord : Orders) (r : ℕ) (idx : List ℕ) : Option α :=
  match afterWrites ((ord.copy r).map (localWrite C pos shape (U r) r)) idx with
  | some v => some v
  | none => received C P pos shape (fun s j => message C pos shape U ord.pack s r j) none r
      (linLeft shape idx)

end Exchange

section Reduce

variable {α : Type} (C : Comm) (P pos : ℕ) (shape : List ℕ)

/-- L447-456: packing of the ghost array on rank `r`, iteration `index`. In the contiguous case
(L429-433) the memory of the ghost array is used directly; it has the same content. -/
def reducePackWrite (V : List ℕ → α) (r index : ℕ) : ℕ × α :=
  let elts := eltsFrom pos shape 0
  (linLeft (packShape pos shape (C.nbGhosts P r))
      (getUIdx (shape.length - 1) (index / elts) (packShape pos shape (C.nbGhosts P r)) 0
        (index % elts)),
    V (getUIdx pos (index / elts) shape 0 (index % elts)))

/-- L432, L459, L485-495: the `j`-th value of the message from rank `r` back to rank `s`. -/
def reduceMessage (V : ℕ → List ℕ → α) (order : ℕ → List ℕ) (r s j : ℕ) : Option α :=
  let elts := eltsFrom pos shape 0
  if j < C.rsz r s * elts then
    afterWrites ((order r).map (reducePackWrite C P pos shape (V r) r))
      (subOffset (C.rsz r) (some r) s * elts + j)
  else none

/-- L469-516: address `a` of the buffer received by rank `s`. -/
def reduceReceived (msg : ℕ → ℕ → Option α) (s a : ℕ) : Option α :=
  let elts := eltsFrom pos shape 0
  ((List.range P).filter fun r => r ≠ s).findSome? fun r =>
    let b := subOffset (C.sz s) (some s) r * elts
    if b ≤ a ∧ a < b + C.sz s r * elts then msg r (a - b) else none

/-- L372-389 `unpack_reduce`: one atomic addition; `none` if the buffer entry was not received. -/
def reduceStep [Add α] (buf : ℕ → Option α) (s : ℕ) (U : List ℕ → α) (index : ℕ) :
    Option (List ℕ → α) :=
  let elts := eltsFrom pos shape 0
  let addr := getUIdx pos ((C.iOcts s).getD (index / elts) 0) shape 0 (index % elts)
  (buf (linLeft (packShape pos shape (C.iOcts s).length)
      (getUIdx (shape.length - 1) (index / elts) (packShape pos shape (C.iOcts s).length) 0
        (index % elts)))).map fun v => fun idx => if idx = addr then U idx + v else U idx

/-- L391-522 `reduce_ghosts` on rank `s`: local array afterwards. `none` if the assertion of L412 fails.
`order` and `orderAdd` are the orders of the packing and of the accumulation kernels. -/
def reduceGhosts [Add α] (U V : ℕ → List ℕ → α) (order orderAdd : ℕ → List ℕ) (s : ℕ) :
    Option (List ℕ → α) :=
  if C.sz s s = 0 then
    (orderAdd s).foldlM (reduceStep C pos shape
      (reduceReceived C P pos shape (fun r j => reduceMessage C P pos shape V order r s j) s) s) (U s)
  else none

end Reduce

end Verif.Comm
