import Verif.Morton.Link

/-!
# C01, C02: properties of Morton keys
-/

namespace Verif.Morton

/-- C01 (3D): decoding a key gives the encoded coordinates back, for all coordinates `< 2^21`. -/
theorem C01_extract3_mortonKey3 (x y z : BitVec 32)
    (hx : x.toNat < 2 ^ 21) (hy : y.toNat < 2 ^ 21) (hz : z.toNat < 2 ^ 21) :
    extract3 0 (mortonKey3 x y z) = x ∧ extract3 1 (mortonKey3 x y z) = y ∧
      extract3 2 (mortonKey3 x y z) = z := by
  have key : ∀ (w : BitVec 32), w.toNat < 2 ^ 21 → ∀ c, (hc : c < 3) →
      (![x, y, z] : Fin 3 → BitVec 32) ⟨c, hc⟩ = w → extract3 c (mortonKey3 x y z) = w := by
    intro w hw c hc hcw
    apply BitVec.eq_of_getLsbD_eq
    intro i hi
    rw [extract3_bit _ _ _ hi]
    by_cases h21 : i < 21
    · rw [mortonKey3_bit _ _ _ _ (by omega)]
      have e : (⟨(c + 3 * i) % 3, Nat.mod_lt _ (by norm_num)⟩ : Fin 3) = ⟨c, hc⟩ :=
        Fin.ext (by simp only; omega)
      have e2 : (c + 3 * i) / 3 = i := by omega
      rw [e, e2, hcw]; simp [h21]
    · have : w.getLsbD i = false := by
        rw [← BitVec.testBit_toNat]
        exact Nat.testBit_lt_two_pow (lt_of_lt_of_le hw (Nat.pow_le_pow_right (by norm_num) (by omega)))
      simp [h21, this]
  exact ⟨key x hx 0 (by norm_num) rfl, key y hy 1 (by norm_num) rfl, key z hz 2 (by norm_num) rfl⟩

example : (5#32).toNat < 2 ^ 21 ∧ (2097151#32).toNat < 2 ^ 21 ∧
    extract3 1 (mortonKey3 5#32 2097151#32 7#32) = 2097151#32 := by decide

/-- C01 (2D): decoding a key gives the encoded coordinates back, for all 32-bit coordinates. -/
theorem C01_extract2_mortonKey2 (x y : BitVec 32) :
    extract2 0 (mortonKey2 x y) = x ∧ extract2 1 (mortonKey2 x y) = y := by
  constructor
  · apply BitVec.eq_of_getLsbD_eq
    intro i hi
    rw [extract2_bit _ _ _ hi, mortonKey2_bit _ _ _ (by omega)]
    have e : (⟨(0 + 2 * i) % 2, Nat.mod_lt _ (by norm_num)⟩ : Fin 2) = 0 :=
      Fin.ext (by simp)
    have e2 : (0 + 2 * i) / 2 = i := by omega
    rw [e, e2]; rfl
  · apply BitVec.eq_of_getLsbD_eq
    intro i hi
    rw [extract2_bit _ _ _ hi, mortonKey2_bit _ _ _ (by omega)]
    have e : (⟨(1 + 2 * i) % 2, Nat.mod_lt _ (by norm_num)⟩ : Fin 2) = 1 :=
      Fin.ext (by simp)
    have e2 : (1 + 2 * i) / 2 = i := by omega
    rw [e, e2]; rfl

/-- C01 (3D): distinct coordinate triples below `2^21` have distinct keys. -/
theorem C01_mortonKey3_injective (x y z x' y' z' : BitVec 32)
    (hx : x.toNat < 2 ^ 21) (hy : y.toNat < 2 ^ 21) (hz : z.toNat < 2 ^ 21)
    (hx' : x'.toNat < 2 ^ 21) (hy' : y'.toNat < 2 ^ 21) (hz' : z'.toNat < 2 ^ 21)
    (h : mortonKey3 x y z = mortonKey3 x' y' z') : x = x' ∧ y = y' ∧ z = z' := by
  obtain ⟨a, b, c⟩ := C01_extract3_mortonKey3 x y z hx hy hz
  obtain ⟨a', b', c'⟩ := C01_extract3_mortonKey3 x' y' z' hx' hy' hz'
  rw [h] at a b c
  exact ⟨a.symm.trans a', b.symm.trans b', c.symm.trans c'⟩

/-- C01 (2D): distinct coordinate pairs have distinct keys. -/
theorem C01_mortonKey2_injective (x y x' y' : BitVec 32)
    (h : mortonKey2 x y = mortonKey2 x' y') : x = x' ∧ y = y' := by
  obtain ⟨a, b⟩ := C01_extract2_mortonKey2 x y
  obtain ⟨a', b'⟩ := C01_extract2_mortonKey2 x' y'
  rw [h] at a b
  exact ⟨a.symm.trans a', b.symm.trans b'⟩

/-- The coordinate bound is needed in 3D: `2^21` and `0` share a key. -/
theorem C01_bound_needed : mortonKey3 (BitVec.ofNat 32 (2 ^ 21)) 0 0 = mortonKey3 0 0 0 := by
  decide

/-- C01 (3D, converse): every 63-bit key is the key of the coordinates extracted from it. -/
theorem C01_mortonKey3_extract3 (k : BitVec 64) (hk : k.toNat < 2 ^ 63) :
    mortonKey3 (extract3 0 k) (extract3 1 k) (extract3 2 k) = k := by
  apply BitVec.eq_of_getLsbD_eq
  intro j hj
  rcases Nat.lt_or_ge j 63 with h | h
  · rw [mortonKey3_bit _ _ _ _ h]
    have hr : j % 3 = 0 ∨ j % 3 = 1 ∨ j % 3 = 2 := by omega
    have h21 : j / 3 < 21 := by omega
    rcases hr with hr | hr | hr
    · have e : (⟨j % 3, Nat.mod_lt _ (by norm_num)⟩ : Fin 3) = 0 := Fin.ext hr
      have e2 : 0 + 3 * (j / 3) = j := by omega
      have := extract3_bit 0 k (j / 3) (by omega)
      rw [e2] at this
      rw [e]; simp only [Matrix.cons_val_zero, this, h21, decide_true, Bool.true_and]
    · have e : (⟨j % 3, Nat.mod_lt _ (by norm_num)⟩ : Fin 3) = 1 := Fin.ext hr
      have e2 : 1 + 3 * (j / 3) = j := by omega
      have := extract3_bit 1 k (j / 3) (by omega)
      rw [e2] at this
      rw [e]; simp only [Matrix.cons_val_one, Matrix.cons_val_zero, this, h21, decide_true, Bool.true_and]
    · have e : (⟨j % 3, Nat.mod_lt _ (by norm_num)⟩ : Fin 3) = 2 := Fin.ext hr
      have e2 : 2 + 3 * (j / 3) = j := by omega
      have := extract3_bit 2 k (j / 3) (by omega)
      rw [e2] at this
      rw [e]; simp only [Matrix.cons_val, this, h21, decide_true, Bool.true_and]
  · have : j = 63 := by omega
    subst this
    rw [mortonKey3_bit63, ← BitVec.testBit_toNat, Nat.testBit_lt_two_pow hk]

/-- C02: seen from a finer level `t ≤ 21`, the key of an octant of level `l` is the key of its
lowest corner cell at level `t`. -/
theorem C02_computeMorton_fine (x y z : BitVec 32) (l t : ℕ) (hlt : l ≤ t) (ht : t ≤ 21)
    (hx : x.toNat < 2 ^ l) (hy : y.toNat < 2 ^ l) (hz : z.toNat < 2 ^ l) :
    (computeMorton x y z l t).toNat =
      zkey 3 3 21 ![x.toNat * 2 ^ (t - l), y.toNat * 2 ^ (t - l), z.toNat * 2 ^ (t - l)] := by
  have hd : ((t : ℤ) - (l : ℤ)).toNat = t - l := by omega
  have hge : ((t : ℤ) - (l : ℤ)) ≥ 0 := by omega
  unfold computeMorton shiftLevel
  rw [if_pos hge, hd, BitVec.toNat_shiftLeft, mortonKey3_toNat, Nat.shiftLeft_eq]
  have hp : ∀ c, (![x.toNat, y.toNat, z.toNat] : Fin 3 → ℕ) c < 2 ^ l := by
    intro c; fin_cases c <;> simpa
  -- a key of coordinates below `2^l` does not change with the number of levels read
  have trunc : ∀ (m k : ℕ) (p : Fin 3 → ℕ), (∀ c, p c < 2 ^ m) →
      zkey 3 3 (m + k) p = zkey 3 3 m p := by
    intro m k p hm
    apply Nat.eq_of_testBit_eq
    intro j
    rw [zkey3_testBit, zkey3_testBit]
    by_cases h1 : j < 3 * m
    · have : j < 3 * (m + k) := by omega
      simp [h1, this]
    · have h2 : (p ⟨j % 3, Nat.mod_lt _ (by norm_num)⟩).testBit (j / 3) = false :=
        Nat.testBit_lt_two_pow (lt_of_lt_of_le (hm _)
          (Nat.pow_le_pow_right (by norm_num) (by omega)))
      simp [h2]
  have e21 : zkey 3 3 21 ![x.toNat, y.toNat, z.toNat] = zkey 3 3 l ![x.toNat, y.toNat, z.toNat] := by
    have := trunc l (21 - l) _ hp
    rwa [show l + (21 - l) = 21 by omega] at this
  have e1 := zkey_mul_pow (d := 3) (e := 3) l (t - l) ![x.toNat, y.toNat, z.toNat]
  have e3 : (fun c => (![x.toNat, y.toNat, z.toNat] : Fin 3 → ℕ) c * 2 ^ (t - l)) =
      ![x.toNat * 2 ^ (t - l), y.toNat * 2 ^ (t - l), z.toNat * 2 ^ (t - l)] := by
    funext c; fin_cases c <;> simp
  rw [show l + (t - l) = t by omega, e3] at e1
  have e4 : zkey 3 3 21 ![x.toNat * 2 ^ (t - l), y.toNat * 2 ^ (t - l), z.toNat * 2 ^ (t - l)] =
      zkey 3 3 t ![x.toNat * 2 ^ (t - l), y.toNat * 2 ^ (t - l), z.toNat * 2 ^ (t - l)] := by
    have hb : ∀ c, (![x.toNat * 2 ^ (t - l), y.toNat * 2 ^ (t - l), z.toNat * 2 ^ (t - l)] :
        Fin 3 → ℕ) c < 2 ^ t := by
      intro c
      rw [← e3]
      calc _ < 2 ^ l * 2 ^ (t - l) := Nat.mul_lt_mul_of_pos_right (hp c) (by positivity)
        _ = 2 ^ t := by rw [← pow_add]; congr 1; omega
    have := trunc t (21 - t) _ hb
    rwa [show t + (21 - t) = 21 by omega] at this
  rw [e21, e4, e1]
  apply Nat.mod_eq_of_lt
  have h5 := zkey_lt (le_refl 3) l ![x.toNat, y.toNat, z.toNat]
  calc _ < 2 ^ (3 * l) * 2 ^ (3 * (t - l)) := Nat.mul_lt_mul_of_pos_right h5 (by positivity)
    _ = 2 ^ (3 * t) := by rw [← pow_add]; congr 1; omega
    _ < 2 ^ 64 := Nat.pow_lt_pow_right (by norm_num) (by omega)

/-- C02: seen from a coarser level, the key of an octant is the key of its ancestor. -/
theorem C02_computeMorton_coarse (x y z : BitVec 32) (l t : ℕ) (hlt : t ≤ l) (hl : l ≤ 21) :
    (computeMorton x y z l t).toNat =
      zkey 3 3 (21 - (l - t)) ![x.toNat / 2 ^ (l - t), y.toNat / 2 ^ (l - t), z.toNat / 2 ^ (l - t)] := by
  have key : ∀ k, k ≤ 21 → (mortonKey3 x y z).toNat / 2 ^ (3 * k) =
      zkey 3 3 (21 - k) ![x.toNat / 2 ^ k, y.toNat / 2 ^ k, z.toNat / 2 ^ k] := by
    intro k hk
    rw [mortonKey3_toNat]
    have := zkey_div (le_refl 3) (21 - k) k ![x.toNat, y.toNat, z.toNat]
    rw [show 21 - k + k = 21 by omega] at this
    rw [this]
    congr 1
    funext c; fin_cases c <;> simp
  unfold computeMorton shiftLevel
  rcases Nat.eq_or_lt_of_le hlt with h | h
  · subst h
    have := key 0 (by omega)
    simpa using this
  · have hge : ¬ ((t : ℤ) - (l : ℤ)) ≥ 0 := by omega
    have hd : (-((t : ℤ) - (l : ℤ))).toNat = l - t := by omega
    rw [if_neg hge, hd, BitVec.toNat_ushiftRight, Nat.shiftRight_eq_div_pow]
    exact key _ (by omega)

/-- C02: cell `q` of level `t` lies inside the octant `(l, p)` iff its key lies in the octant's key
interval. So descendants fill one interval, and no other cell of that level has a key in it. -/
theorem C02_descendant_iff_interval {d e : ℕ} (hde : d ≤ e) (l k : ℕ) (p q : Fin d → ℕ)
    (hp : ∀ c, p c < 2 ^ l) (hq : ∀ c, q c < 2 ^ (l + k)) :
    (∀ c, p c * 2 ^ k ≤ q c ∧ q c < (p c + 1) * 2 ^ k) ↔
      (zkey d e l p * 2 ^ (e * k) ≤ zkey d e (l + k) q ∧
        zkey d e (l + k) q < (zkey d e l p + 1) * 2 ^ (e * k)) := by
  have hpos : 0 < 2 ^ (e * k) := by positivity
  have iv : ∀ a b m : ℕ, 0 < m → ((a * m ≤ b ∧ b < (a + 1) * m) ↔ b / m = a) := by
    intro a b m hm
    rw [Nat.div_eq_iff hm, Nat.add_one_mul]
    constructor <;> rintro ⟨_, _⟩ <;> constructor <;> omega
  rw [iv _ _ _ hpos, zkey_div hde]
  constructor
  · intro h
    congr 1
    funext c
    exact (iv _ _ _ (by positivity)).1 (h c)
  · intro h c
    have hq' : ∀ c, q c / 2 ^ k < 2 ^ l := by
      intro c
      rw [Nat.div_lt_iff_lt_mul (by positivity), ← pow_add]
      exact hq c
    have := congrFun (zkey_inj hde l hq' hp h) c
    exact (iv _ _ _ (by positivity)).2 this

/-- C02: keys grow with each coordinate, and strictly unless the cells are equal. -/
theorem C02_monotone {d e : ℕ} (hde : d ≤ e) (n : ℕ) (p q : Fin d → ℕ)
    (hq : ∀ c, q c < 2 ^ n) (h : ∀ c, p c ≤ q c) :
    zkey d e n p ≤ zkey d e n q ∧ (p ≠ q → zkey d e n p < zkey d e n q) := by
  have h1 := zkey_mono hde n hq h
  refine ⟨h1, fun hne => lt_of_le_of_ne h1 (fun he => hne ?_)⟩
  exact zkey_inj hde n (fun c => lt_of_le_of_lt (h c) (hq c)) hq he

/-- The hypotheses are met by the octant (2; 1,3,0) and its descendant (4; 5,14,2). -/
example : (∀ c, (![1, 3, 0] : Fin 3 → ℕ) c < 2 ^ 2) ∧ (∀ c, (![5, 14, 2] : Fin 3 → ℕ) c < 2 ^ (2 + 2)) ∧
    (∀ c, (![1, 3, 0] : Fin 3 → ℕ) c * 2 ^ 2 ≤ (![5, 14, 2] : Fin 3 → ℕ) c ∧
      (![5, 14, 2] : Fin 3 → ℕ) c < ((![1, 3, 0] : Fin 3 → ℕ) c + 1) * 2 ^ 2) := by
  decide

example : computeMorton 1#32 3#32 0#32 2 4 = BitVec.ofNat 64 (zkey 3 3 4 ![4, 12, 0]) := by decide

end Verif.Morton
