import Mathlib.Data.List.Basic
import Mathlib.Tactic.NormNum
import Mathlib.Tactic.Ring

/-!
# C35: Fortran records

Model of `core/src/utils/io/FortranBinaryReader.h`. The host is little-endian. A value of a type `T`
is represented by its memory image, a list of `sizeof(T)` bytes; the stream is the list of the bytes
that have not been read.
-/

namespace Verif.Io

abbrev Byte := Fin 256

/-! ### Model -/

/-- L8-20: the memory image is reversed. -/
def endianSwap (v : List Byte) : List Byte := v.reverse

/-- Value of the bytes of an `int32_t` as an unsigned number, on a little-endian host. -/
def tagNat : List Byte → ℕ
  | [] => 0
  | b :: r => b.val + 256 * tagNat r

/-- Value of the bytes of an `int32_t`. -/
def tagInt (t : List Byte) : ℤ := if tagNat t < 2 ^ 31 then tagNat t else (tagNat t : ℤ) - 2 ^ 32

/-- Conversion `(size_t)` of an `int32_t`, L46 and L48: modulo `2^64`. -/
def toSize (i : ℤ) : ℕ := (i % 2 ^ 64).toNat

/-- Split the bytes of the buffer into the images of `count` values of `size` bytes. -/
def split (size : ℕ) : ℕ → List Byte → List (List Byte)
  | 0, _ => []
  | n + 1, l => l.take size :: split size n (l.drop size)

/-- Outcome of a call. `rejected`: a `DYABLO_ASSERT_HOST_RELEASE` fails. `undefined`: the stream ended,
so that an uninitialised tag is used. `swap` is the value of the static `_byteswap` afterwards. -/
inductive Outcome
  | ok (values : List (List Byte)) (rest : List Byte) (swap : Bool)
  | rejected (swap : Bool)
  | undefined
deriving DecidableEq, Repr

/-- L32-70. `count*sizeof(T)` is computed without overflow (caller's precondition: the buffer
exists). -/
def readRecord (swap : Bool) (size count : ℕ) (stream : List Byte) : Outcome :=
  if stream.length < 4 then .undefined
  else
    let beginTag := stream.take 4
    let recordSize := if swap then endianSwap beginTag else beginTag
    if tagInt recordSize < 0 then .rejected swap
    else if toSize (tagInt recordSize) ≠ count * size ∧
        toSize (tagInt (endianSwap recordSize)) ≠ count * size then .rejected swap
    else
      let swap' := if toSize (tagInt recordSize) ≠ count * size then !swap else swap
      let s := stream.drop 4
      if s.length < count * size + 4 then .undefined
      else
        let buffer := split size count (s.take (count * size))
        let buffer' := if swap' then buffer.map endianSwap else buffer
        let s' := s.drop (count * size)
        if beginTag ≠ s'.take 4 then .rejected swap'
        else .ok buffer' (s'.drop 4) swap'

/-! ### Specification -/

/-- The four bytes of a number, least significant first. -/
def le4 (n : ℕ) : List Byte :=
  [⟨n % 256, Nat.mod_lt _ (by norm_num)⟩, ⟨n / 256 % 256, Nat.mod_lt _ (by norm_num)⟩,
    ⟨n / 256 ^ 2 % 256, Nat.mod_lt _ (by norm_num)⟩, ⟨n / 256 ^ 3 % 256, Nat.mod_lt _ (by norm_num)⟩]

/-- Bytes in the file of a value whose little-endian image is `v`. -/
def inOrder (big : Bool) (v : List Byte) : List Byte := if big then v.reverse else v

/-- A record of the values `vs` (little-endian images) in a file of the given byte order: number of
bytes, bytes of the values, number of bytes. -/
def record (big : Bool) (vs : List (List Byte)) : List Byte :=
  inOrder big (le4 (vs.map List.length).sum) ++ (vs.map (inOrder big)).flatten ++
    inOrder big (le4 (vs.map List.length).sum)

/-! ### Lemmas -/

theorem le4_length (n : ℕ) : (le4 n).length = 4 := rfl

theorem tagNat_le4 (n : ℕ) (h : n < 2 ^ 32) : tagNat (le4 n) = n := by
  simp only [le4, tagNat]; omega

theorem inOrder_length (big : Bool) (v : List Byte) : (inOrder big v).length = v.length := by
  cases big <;> simp [inOrder]

theorem inOrder_inOrder (a b : Bool) (v : List Byte) :
    inOrder a (inOrder b v) = inOrder (xor a b) v := by
  cases a <;> cases b <;> simp [inOrder]

theorem map_inOrder_false (vs : List (List Byte)) : vs.map (inOrder false) = vs := by
  have : inOrder false = id := by funext v; rfl
  rw [this, List.map_id]

theorem tagInt_of_lt (n : ℕ) (h : n < 2 ^ 31) : tagInt (le4 n) = n := by
  unfold tagInt; rw [tagNat_le4 n (by omega), if_pos h]

theorem toSize_nat (n : ℕ) (h : n < 2 ^ 64) : toSize n = n := by
  unfold toSize; omega

theorem toSize_neg (i : ℤ) (h : i < 0) (h2 : -2 ^ 32 ≤ i) : 2 ^ 63 ≤ toSize i := by
  unfold toSize; omega

theorem sum_const {vs : List (List Byte)} {size : ℕ} (h : ∀ v ∈ vs, v.length = size) :
    (vs.map List.length).sum = vs.length * size := by
  induction vs with
  | nil => simp
  | cons v vs ih =>
    simp only [List.map_cons, List.sum_cons, List.length_cons]
    rw [ih fun w hw => h w (by simp [hw]), h v (by simp), Nat.succ_mul]
    omega

theorem flatten_length {vs : List (List Byte)} {size : ℕ} (h : ∀ v ∈ vs, v.length = size) :
    vs.flatten.length = vs.length * size := by
  rw [List.length_flatten, sum_const h]

theorem split_flatten {vs : List (List Byte)} {size : ℕ} (h : ∀ v ∈ vs, v.length = size) :
    split size vs.length vs.flatten = vs := by
  induction vs with
  | nil => simp [split]
  | cons v vs ih =>
    have hv : v.length = size := h v (by simp)
    simp only [List.length_cons, split, List.flatten_cons]
    rw [List.take_left' hv, List.drop_left' hv, ih fun w hw => h w (by simp [hw])]

theorem map_inOrder_length {vs : List (List Byte)} {size : ℕ} (big : Bool)
    (h : ∀ v ∈ vs, v.length = size) : ∀ v ∈ vs.map (inOrder big), v.length = size := by
  intro v hv
  obtain ⟨w, hw, rfl⟩ := List.mem_map.mp hv
  rw [inOrder_length, h w hw]

/-- What `readRecord` does with a record of the right size, in terms of the value that the begin tag
has for the reader. -/
theorem readRecord_record (swap big : Bool) (size : ℕ) (vs : List (List Byte)) (rest : List Byte)
    (h : ∀ v ∈ vs, v.length = size) (swap' : Bool)
    (hneg : ¬ tagInt (inOrder (xor swap big) (le4 (vs.length * size))) < 0)
    (hs : if toSize (tagInt (inOrder (xor swap big) (le4 (vs.length * size)))) = vs.length * size
      then swap' = swap
      else toSize (tagInt (inOrder (!xor swap big) (le4 (vs.length * size)))) = vs.length * size ∧
        swap' = !swap) :
    readRecord swap size vs.length (record big vs ++ rest) =
      .ok (vs.map (inOrder (xor swap' big))) rest swap' := by
  unfold readRecord record
  rw [sum_const h]
  have l4 : ∀ b, (inOrder b (le4 (vs.length * size))).length = 4 := fun b => inOrder_length _ _
  have lf := flatten_length (map_inOrder_length big h)
  rw [List.length_map] at lf
  have e1 : (if swap = true then endianSwap (inOrder big (le4 (vs.length * size)))
      else inOrder big (le4 (vs.length * size))) = inOrder (xor swap big) (le4 (vs.length * size)) := by
    rw [← inOrder_inOrder]; cases swap <;> rfl
  have e2 : endianSwap (inOrder (xor swap big) (le4 (vs.length * size))) =
      inOrder (!xor swap big) (le4 (vs.length * size)) := by
    cases swap <;> cases big <;> simp [inOrder, endianSwap]
  simp only [List.append_assoc, List.take_left' (l4 big), List.drop_left' (l4 big), e1, e2,
    List.take_left' lf, List.drop_left' lf, List.length_append, l4, lf]
  rw [if_neg (by omega), if_neg hneg]
  have hsw : (if toSize (tagInt (inOrder (xor swap big) (le4 (vs.length * size)))) ≠ vs.length * size
      then !swap else swap) = swap' := by
    by_cases hc : toSize (tagInt (inOrder (xor swap big) (le4 (vs.length * size)))) = vs.length * size
    · rw [if_pos hc] at hs; rw [if_neg (by simpa using hc), hs]
    · rw [if_neg hc] at hs; rw [if_pos hc, hs.2]
  rw [if_neg, if_neg (by omega), hsw, if_neg (by simp)]
  · congr 1
    have := split_flatten (map_inOrder_length big h)
    rw [List.length_map] at this
    rw [this]
    cases swap'
    · simp
    · simp only [↓reduceIte, List.map_map]
      apply List.map_congr_left
      intro v _
      simp only [Function.comp]
      rw [← inOrder_inOrder]; rfl
  · intro hc
    rw [if_neg hc.1] at hs
    exact hc.2 hs.1

/-! ### Properties -/

/-- Reading with the right byte order returns exactly the values, whatever the length. -/
theorem C35_same_order (big : Bool) (size : ℕ) (vs : List (List Byte)) (rest : List Byte)
    (h : ∀ v ∈ vs, v.length = size) (hn : vs.length * size < 2 ^ 31) :
    readRecord big size vs.length (record big vs ++ rest) = .ok vs rest big := by
  have key : tagInt (inOrder (xor big big) (le4 (vs.length * size))) = (vs.length * size : ℕ) := by
    rw [Bool.xor_self]; exact tagInt_of_lt _ hn
  rw [readRecord_record big big size vs rest h big]
  · rw [Bool.xor_self, map_inOrder_false]
  · rw [key]; omega
  · rw [key, if_pos (toSize_nat _ (by omega))]

/-- A file: the records of several lists of values one after the other. -/
def file (big : Bool) (rs : List (ℕ × List (List Byte))) : List Byte :=
  (rs.map fun r => record big r.2).flatten

/-- Successive reads of a file; `none` if one of them does not succeed. -/
def readAll (swap : Bool) : List (ℕ × ℕ) → List Byte → Option (List (List (List Byte)) × List Byte)
  | [], s => some ([], s)
  | (size, count) :: rs, s =>
    match readRecord swap size count s with
    | .ok vs rest swap' => (readAll swap' rs rest).map fun p => (vs :: p.1, p.2)
    | _ => none

/-- Full property for a file in one byte order, once the reader knows it. -/
theorem C35_file_same_order (big : Bool) (rs : List (ℕ × List (List Byte)))
    (h : ∀ r ∈ rs, (∀ v ∈ r.2, v.length = r.1) ∧ r.2.length * r.1 < 2 ^ 31) :
    readAll big (rs.map fun r => (r.1, r.2.length)) (file big rs) = some (rs.map (·.2), []) := by
  induction rs with
  | nil => rfl
  | cons r rs ih =>
    have hr := h r (by simp)
    simp only [List.map_cons, readAll, file, List.flatten_cons]
    rw [C35_same_order big r.1 r.2 _ hr.1 hr.2]
    have := ih fun q hq => h q (by simp [hq])
    unfold file at this
    simp only [this, Option.map_some]

theorem digits4 (n : ℕ) (h : n < 2 ^ 32) : n = n % 256 + 256 * (n / 256 % 256) +
    65536 * (n / 256 ^ 2 % 256) + 16777216 * (n / 256 ^ 3 % 256) := by omega

theorem tagNat_rev (n : ℕ) : tagNat (inOrder true (le4 n)) =
    n / 256 ^ 3 % 256 + 256 * (n / 256 ^ 2 % 256) + 65536 * (n / 256 % 256) + 16777216 * (n % 256) := by
  simp only [le4, inOrder, tagNat, List.reverse_cons, List.reverse_nil, List.nil_append,
    List.cons_append, ↓reduceIte]
  ring

/-- A record in either byte order is read exactly, whatever the reader assumed before, if its number of
bytes is zero, or is not the same in both byte orders and is less than 128 modulo 256. The reader knows
the byte order afterwards.

Not covered (the full statement has no condition on the length): see `C35_128_bytes_fails` and
`C35_palindrome_fails`. -/
theorem C35_either_order_partial (swap big : Bool) (size : ℕ) (vs : List (List Byte))
    (rest : List Byte) (h : ∀ v ∈ vs, v.length = size) (hn : vs.length * size < 2 ^ 31)
    (hlow : vs.length * size % 256 < 128)
    (hpal : (le4 (vs.length * size)).reverse ≠ le4 (vs.length * size)) :
    readRecord swap size vs.length (record big vs ++ rest) = .ok vs rest big := by
  by_cases hb : swap = big
  · rw [hb]; exact C35_same_order big size vs rest h hn
  · have hx : xor swap big = true := by cases swap <;> cases big <;> simp_all
    have key1 : tagNat (inOrder true (le4 (vs.length * size))) < 2 ^ 31 := by
      rw [tagNat_rev]; omega
    have key : tagInt (inOrder true (le4 (vs.length * size))) =
        (tagNat (inOrder true (le4 (vs.length * size))) : ℤ) := by
      unfold tagInt; rw [if_pos key1]
    rw [readRecord_record swap big size vs rest h big]
    · rw [Bool.xor_self, map_inOrder_false]
    · rw [hx, key]; omega
    · rw [hx, key, toSize_nat _ (by omega), if_neg]
      · refine ⟨?_, by cases swap <;> cases big <;> simp_all⟩
        have e : inOrder (!true) (le4 (vs.length * size)) = le4 (vs.length * size) := rfl
        rw [e, tagInt_of_lt _ hn, toSize_nat _ (by omega)]
      · intro hc
        apply hpal
        rw [tagNat_rev] at hc
        clear key key1 hpal hlow
        generalize vs.length * size = n at hc hn ⊢
        have hd := digits4 n (by omega)
        have ha := Nat.mod_lt n (show 0 < 256 by norm_num)
        have hb := Nat.mod_lt (n / 256) (show 0 < 256 by norm_num)
        have hc' := Nat.mod_lt (n / 256 ^ 2) (show 0 < 256 by norm_num)
        have hd' := Nat.mod_lt (n / 256 ^ 3) (show 0 < 256 by norm_num)
        simp only [le4, List.reverse_cons, List.reverse_nil, List.nil_append, List.cons_append,
          List.cons.injEq, Fin.mk.injEq, and_true]
        generalize n % 256 = a at *
        generalize n / 256 % 256 = b at *
        generalize n / 256 ^ 2 % 256 = c at *
        generalize n / 256 ^ 3 % 256 = d at *
        conv_rhs at hc => rw [hd]
        clear hd hn
        omega

theorem C35_empty (swap big : Bool) (size : ℕ) (rest : List Byte) :
    readRecord swap size 0 (record big [] ++ rest) = .ok [] rest swap := by
  have := readRecord_record swap big size [] rest (by simp) swap
  simp only [List.length_nil, Nat.zero_mul] at this
  rw [this]
  · simp
  · cases swap <;> cases big <;> decide
  · cases swap <;> cases big <;> decide

/-- If a read succeeds then the stream starts with two equal tags around the bytes returned, and the
tag is the required number of bytes in one of the two byte orders. -/
theorem C35_success (swap : Bool) (size count : ℕ) (stream : List Byte) (vs : List (List Byte))
    (rest : List Byte) (swap' : Bool) (hsize : count * size < 2 ^ 31)
    (h : readRecord swap size count stream = .ok vs rest swap') :
    ∃ tag data : List Byte, tag.length = 4 ∧ data.length = count * size ∧
      stream = tag ++ data ++ tag ++ rest ∧
      tagNat (inOrder swap' tag) = count * size ∧
      vs = (split size count data).map (inOrder swap') := by
  have e1 : ∀ b : Bool, (if b = true then endianSwap (stream.take 4) else stream.take 4) =
      inOrder b (stream.take 4) := by intro b; cases b <;> rfl
  have e2 : ∀ b : Bool, endianSwap (inOrder b (stream.take 4)) = inOrder (!b) (stream.take 4) := by
    intro b; cases b <;> simp [inOrder, endianSwap]
  unfold readRecord at h
  simp only [e1, e2] at h
  by_cases h4 : stream.length < 4
  · rw [if_pos h4] at h; cases h
  rw [if_neg h4] at h
  by_cases hneg : tagInt (inOrder swap (stream.take 4)) < 0
  · rw [if_pos hneg] at h; cases h
  rw [if_neg hneg] at h
  by_cases hsz : toSize (tagInt (inOrder swap (stream.take 4))) ≠ count * size ∧
      toSize (tagInt (inOrder (!swap) (stream.take 4))) ≠ count * size
  · rw [if_pos hsz] at h; cases h
  rw [if_neg hsz] at h
  by_cases hlen : (stream.drop 4).length < count * size + 4
  · rw [if_pos hlen] at h; cases h
  rw [if_neg hlen] at h
  by_cases htag : stream.take 4 ≠ ((stream.drop 4).drop (count * size)).take 4
  · rw [if_pos htag] at h; cases h
  rw [if_neg htag] at h
  push Not at htag
  simp only [Outcome.ok.injEq] at h
  obtain ⟨hv, hrest, hsw⟩ := h
  refine ⟨stream.take 4, (stream.drop 4).take (count * size), by simp; omega, ?_, ?_, ?_, ?_⟩
  · simp only [List.length_take, List.length_drop] at *; omega
  · conv_rhs => rw [List.append_assoc, List.append_assoc]
    conv_rhs => rw [← hrest]
    conv_rhs => rw [htag]
    rw [List.take_append_drop, List.take_append_drop]
    conv_rhs => rw [← htag]
    rw [List.take_append_drop]
  · have conv : ∀ t : List Byte, t.length = 4 → toSize (tagInt t) = count * size →
        tagNat t = count * size := by
      intro t ht hc
      have hb : tagNat t < 2 ^ 32 := by
        match t, ht with
        | [a, b, c, d], _ => simp only [tagNat]; omega
      unfold tagInt at hc
      split at hc
      · rw [toSize_nat _ (by omega)] at hc; exact hc
      · have := toSize_neg ((tagNat t : ℤ) - 2 ^ 32) (by omega) (by omega)
        omega
    have l4 : ∀ b : Bool, (inOrder b (stream.take 4)).length = 4 := by
      intro b; rw [inOrder_length]; simp; omega
    rw [← hsw]
    by_cases hc : toSize (tagInt (inOrder swap (stream.take 4))) = count * size
    · rw [if_neg (by simpa using hc)]; exact conv _ (l4 _) hc
    · rw [if_pos hc]
      exact conv _ (l4 _) (by by_contra hx; exact hsz ⟨hc, hx⟩)
  · rw [← hv, hsw]
    cases swap'
    · rw [map_inOrder_false]; rfl
    · rfl

/-- A record of a different number of bytes is not accepted, unless the number of bytes with its bytes
reversed happens to be the required one. -/
theorem C35_wrong_size_rejected_partial (swap big : Bool) (size count : ℕ) (vs : List (List Byte))
    (rest : List Byte) (hn : (vs.map List.length).sum < 2 ^ 31) (hsize : count * size < 2 ^ 31)
    (hne : (vs.map List.length).sum ≠ count * size)
    (hrev : tagNat (le4 (vs.map List.length).sum).reverse ≠ count * size) :
    ∃ s, readRecord swap size count (record big vs ++ rest) = .rejected s := by
  have e : ∀ b : Bool, tagNat (inOrder b (le4 (vs.map List.length).sum)) ≠ count * size := by
    intro b
    cases b
    · have : inOrder false (le4 (vs.map List.length).sum) = le4 (vs.map List.length).sum := rfl
      rw [this, tagNat_le4 _ (by omega)]; exact hne
    · exact hrev
  have conv : ∀ b : Bool, toSize (tagInt (inOrder b (le4 (vs.map List.length).sum))) ≠ count * size := by
    intro b hc
    have hb : tagNat (inOrder b (le4 (vs.map List.length).sum)) < 2 ^ 32 := by
      cases b
      · have : inOrder false (le4 (vs.map List.length).sum) = le4 (vs.map List.length).sum := rfl
        rw [this, tagNat_le4 _ (by omega)]; omega
      · rw [tagNat_rev]; omega
    unfold tagInt at hc
    split at hc
    · rw [toSize_nat _ (by omega)] at hc; exact e b hc
    · have := toSize_neg ((tagNat (inOrder b (le4 (vs.map List.length).sum)) : ℤ) - 2 ^ 32)
        (by omega) (by omega)
      omega
  unfold readRecord record
  have l4 : ∀ b, (inOrder b (le4 (vs.map List.length).sum)).length = 4 := fun b => inOrder_length _ _
  have e1 : (if swap = true then endianSwap (inOrder big (le4 (vs.map List.length).sum))
      else inOrder big (le4 (vs.map List.length).sum)) =
      inOrder (xor swap big) (le4 (vs.map List.length).sum) := by
    rw [← inOrder_inOrder]; cases swap <;> rfl
  have e2 : endianSwap (inOrder (xor swap big) (le4 (vs.map List.length).sum)) =
      inOrder (!xor swap big) (le4 (vs.map List.length).sum) := by
    cases swap <;> cases big <;> simp [inOrder, endianSwap]
  simp only [List.append_assoc, List.take_left' (l4 big), e1, e2]
  rw [if_neg (by simp only [List.length_append, l4]; omega)]
  split
  · exact ⟨_, rfl⟩
  · rw [if_pos ⟨conv _, conv _⟩]; exact ⟨_, rfl⟩

/-! ### Counterexamples -/

/-- A record of 128 bytes (16 doubles) in the other byte order is rejected as a subrecord: its tag is
negative before the bytes are swapped, and L45 tests the sign before the byte order is detected. -/
theorem C35_128_bytes_fails :
    readRecord false 8 16 (record true (List.replicate 16 (List.replicate 8 0))) = .rejected false := by
  decide +kernel

/-- 65792 bytes (8224 doubles): the number is the same in both byte orders, so the first such record of
a big-endian file is accepted and its values are returned with their bytes in the wrong order. -/
theorem C35_palindrome_fails (v : List Byte) (hv : v.length = 8) (rest : List Byte)
    (hp : v.reverse ≠ v) :
    ∃ ws, readRecord false 8 8224 (record true (List.replicate 8224 v) ++ rest) = .ok ws rest false ∧
      ws ≠ List.replicate 8224 v := by
  have := readRecord_record false true 8 (List.replicate 8224 v) rest
    (fun w hw => by rw [List.eq_of_mem_replicate hw, hv]) false
    (by rw [List.length_replicate]; decide) (by rw [List.length_replicate]; decide)
  rw [List.length_replicate] at this
  refine ⟨_, this, ?_⟩
  intro hc
  rw [List.map_replicate] at hc
  have h0 := congrArg List.head? hc
  rw [List.head?_replicate, List.head?_replicate] at h0
  simp only [Nat.reduceEqDiff, ↓reduceIte, Option.some.injEq] at h0
  exact hp h0

/-! ### Examples -/

/-- Two doubles in the other byte order. -/
example : readRecord false 8 2 (record true [[1, 2, 3, 4, 5, 6, 7, 8], [9, 8, 7, 6, 5, 4, 3, 2]] ++ [1]) =
    .ok [[1, 2, 3, 4, 5, 6, 7, 8], [9, 8, 7, 6, 5, 4, 3, 2]] [1] true :=
  C35_either_order_partial false true 8 [[1, 2, 3, 4, 5, 6, 7, 8], [9, 8, 7, 6, 5, 4, 3, 2]] [1]
    (by decide) (by decide) (by decide) (by decide)

/-- One double where two are required. -/
example : ∃ s, readRecord false 8 2 (record true [[1, 2, 3, 4, 5, 6, 7, 8]]) = .rejected s := by
  have := C35_wrong_size_rejected_partial false true 8 2 [[1, 2, 3, 4, 5, 6, 7, 8]] []
    (by decide) (by decide) (by decide) (by decide)
  rwa [List.append_nil] at this

/-- A file of two records of different types. -/
example : readAll true [(4, 1), (2, 2)] (file true [(4, [[1, 2, 3, 4]]), (2, [[5, 6], [7, 8]])]) =
    some ([[[1, 2, 3, 4]], [[5, 6], [7, 8]]], []) :=
  C35_file_same_order true [(4, [[1, 2, 3, 4]]), (2, [[5, 6], [7, 8]])] (by decide)

/-- The hypotheses of `C35_palindrome_fails`. -/
example : ∃ v : List Byte, v.length = 8 ∧ v.reverse ≠ v := ⟨[0, 0, 0, 0, 0, 0, 240, 63], by decide, by decide⟩

end Verif.Io
