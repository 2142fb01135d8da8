/-!
# Model of `core/src/morton_utils.h`

`uint64_t` and `uint32_t` are `BitVec 64` and `BitVec 32`.
Shifts discard the bits that leave the word, as in C++.
-/

namespace Verif.Morton

/-- `core/src/morton_utils.h` L64-81, `splitBy3<2>`. -/
def splitBy2 (a : BitVec 32) : BitVec 64 :=
  let x := a.setWidth 64 &&& 0xffffffff#64
  let x := (x ||| x <<< 16) &&& 0xffff0000ffff#64
  let x := (x ||| x <<< 8) &&& 0xff00ff00ff00ff#64
  let x := (x ||| x <<< 4) &&& 0xf0f0f0f0f0f0f0f#64
  let x := (x ||| x <<< 2) &&& 0x3333333333333333#64
  let x := (x ||| x <<< 1) &&& 0x5555555555555555#64
  x

/-- `core/src/morton_utils.h` L83-103, `splitBy3<3>`. -/
def splitBy3 (a : BitVec 32) : BitVec 64 :=
  let x := a.setWidth 64 &&& 0x1fffff#64
  let x := (x ||| x <<< 32) &&& 0x1f00000000ffff#64
  let x := (x ||| x <<< 16) &&& 0x1f0000ff0000ff#64
  let x := (x ||| x <<< 8) &&& 0x100f00f00f00f00f#64
  let x := (x ||| x <<< 4) &&& 0x10c30c30c30c30c3#64
  let x := (x ||| x <<< 2) &&& 0x1249249249249249#64
  x

/-- `core/src/morton_utils.h` L180-188, 2D `compute_morton_key(ix, iy)`
(same expression as the `index_t<2>` overload, L163-178). -/
def mortonKey2 (ix iy : BitVec 32) : BitVec 64 :=
  0#64 ||| (splitBy2 ix ||| splitBy2 iy <<< 1)

/-- `core/src/morton_utils.h` L190-198, 3D `compute_morton_key(ix, iy, iz)`
(same expression as the `index_t<3>` overload, L163-178). -/
def mortonKey3 (ix iy iz : BitVec 32) : BitVec 64 :=
  0#64 ||| (splitBy3 ix ||| splitBy3 iy <<< 1 ||| splitBy3 iz <<< 2)

/-- `core/src/morton_utils.h` L213-245, `morton_extract_coord<coord>(2, key)`. -/
def extract2 (coord : Nat) (key : BitVec 64) : BitVec 32 :=
  let key := key >>> coord
  let key := key &&& 0x5555555555555555#64
  let key := (key ^^^ (key >>> 1)) &&& 0x3333333333333333#64
  let key := (key ^^^ (key >>> 2)) &&& 0x0f0f0f0f0f0f0f0f#64
  let key := (key ^^^ (key >>> 4)) &&& 0x00ff00ff00ff00ff#64
  let key := (key ^^^ (key >>> 8)) &&& 0x0000ffff0000ffff#64
  let key := (key ^^^ (key >>> 16)) &&& 0x00000000ffffffff#64
  key.setWidth 32

/-- `core/src/morton_utils.h` L213-245, `morton_extract_coord<coord>(3, key)`. -/
def extract3 (coord : Nat) (key : BitVec 64) : BitVec 32 :=
  let key := key >>> coord
  let key := key &&& 0x1249249249249249#64
  let key := (key ^^^ (key >>> 2)) &&& 0x30c30c30c30c30c3#64
  let key := (key ^^^ (key >>> 4)) &&& 0xf00f00f00f00f00f#64
  let key := (key ^^^ (key >>> 8)) &&& 0x00ff0000ff0000ff#64
  let key := (key ^^^ (key >>> 16)) &&& 0x00ff00000000ffff#64
  let key := (key ^^^ (key >>> 32)) &&& 0x1fffff#64
  key.setWidth 32

/-- `core/src/amr/AMRmesh_hashmap_new.cpp` L228-234, `shift_level(m, level_diff)`:
shift by three bits per level, to the left when `level_diff ≥ 0`, to the right otherwise. -/
def shiftLevel (m : BitVec 64) (levelDiff : Int) : BitVec 64 :=
  if levelDiff ≥ 0 then m <<< (3 * levelDiff.toNat) else m >>> (3 * (-levelDiff).toNat)

/-- Key of an octant of level `l` at target level `t`, as `compute_morton` computes it
(`core/src/amr/AMRmesh_hashmap_new.cpp` L236-244). -/
def computeMorton (x y z : BitVec 32) (l t : Nat) : BitVec 64 :=
  shiftLevel (mortonKey3 x y z) ((t : Int) - (l : Int))

end Verif.Morton
