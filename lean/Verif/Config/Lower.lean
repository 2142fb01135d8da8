import Verif.Config.Map

/-!
# Lower case
-/

namespace Verif.Config

theorem toLower_toNat (c : Char) :
    c.toLower.toNat = if 65 ≤ c.toNat ∧ c.toNat ≤ 90 then c.toNat + 32 else c.toNat := by
  unfold Char.toLower
  have h1 : (c.val ≥ 'A'.val) ↔ 65 ≤ c.toNat := by
    rw [ge_iff_le, UInt32.le_iff_toNat_le]; rfl
  have h2 : (c.val ≤ 'Z'.val) ↔ c.toNat ≤ 90 := by
    rw [UInt32.le_iff_toNat_le]; rfl
  by_cases h : 65 ≤ c.toNat ∧ c.toNat ≤ 90
  · rw [if_pos h, dif_pos ⟨h1.2 h.1, h2.2 h.2⟩]
    change (c.val + ('a'.val - 'A'.val)).toNat = c.val.toNat + 32
    have h3 : c.val.toNat ≤ 90 := h.2
    rw [UInt32.toNat_add, show ('a'.val - 'A'.val).toNat = 32 from rfl]
    omega
  · rw [if_neg h, dif_neg fun h' => h ⟨h1.1 h'.1, h2.1 h'.2⟩]

theorem char_ext {a b : Char} (h : a.toNat = b.toNat) : a = b :=
  Char.ext (UInt32.toNat_inj.1 h)

theorem toLower_toLower (c : Char) : c.toLower.toLower = c.toLower := by
  refine char_ext ?_
  rw [toLower_toNat, if_neg]
  rw [toLower_toNat]
  split <;> omega

theorem lower_lower (s : Str) : lower (lower s) = lower s := by
  unfold lower
  rw [List.map_map]
  exact List.map_congr_left fun c _ => toLower_toLower c

/-- A character that is not a letter comes only from itself. -/
theorem toLower_eq_iff {c x : Char} (h : x.toNat < 65) : c.toLower = x ↔ c = x := by
  constructor
  · intro e
    refine char_ext ?_
    have := congrArg Char.toNat e
    rw [toLower_toNat] at this
    split at this <;> omega
  · rintro rfl
    refine char_ext ?_
    rw [toLower_toNat, if_neg (by omega)]

end Verif.Config
