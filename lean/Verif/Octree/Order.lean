import Verif.Octree.Geom
import Verif.Morton.Spec

/-!
# Z-order of octants
-/

namespace Verif.Octree

open Verif.Morton

variable {d : ℕ}

/-- Key of the octant `o` on the grid of level `L`, with `e` bits per level: the key of its lowest
cell of level `L`. -/
def okey (e L : ℕ) (o : Oct d) : ℕ := zkey d e L fun i => o.pos i * 2 ^ (L - o.level)

/-- End of the key interval of the cells of level `L` inside `o`. -/
def oend (e L : ℕ) (o : Oct d) : ℕ := okey e L o + 2 ^ (e * (L - o.level))

/-- The octants are listed in Z-order, without overlap. -/
def ZOrdered (e L : ℕ) (l : List (Oct d)) : Prop := l.Pairwise fun a b => oend e L a ≤ okey e L b

theorem okey_eq {e L : ℕ} {o : Oct d} (h : o.level ≤ L) :
    okey e L o = zkey d e o.level o.pos * 2 ^ (e * (L - o.level)) := by
  unfold okey
  have := zkey_mul_pow (d := d) (e := e) o.level (L - o.level) o.pos
  rw [show o.level + (L - o.level) = L by omega] at this
  exact this

theorem okey_lt_oend (e L : ℕ) (o : Oct d) : okey e L o < oend e L o := by
  unfold oend
  have : 0 < 2 ^ (e * (L - o.level)) := by positivity
  omega

theorem oend_eq {e L : ℕ} {o : Oct d} (h : o.level ≤ L) :
    oend e L o = (zkey d e o.level o.pos + 1) * 2 ^ (e * (L - o.level)) := by
  unfold oend
  rw [okey_eq h]; ring

theorem Valid.lt_pow {G : Grid d} (hG : G.WF) {o : Oct d} (h : Valid G o) (i : Fin d) :
    o.pos i < 2 ^ o.level := lt_of_lt_of_le (h.2 i) (count_le hG i h.1)

/-- Key intervals of descendants are nested. -/
theorem Anc.okey_le {e L : ℕ} (hde : d ≤ e) {a b : Oct d} (h : Anc a b) (hb : b.level ≤ L) :
    okey e L a ≤ okey e L b ∧ oend e L b ≤ oend e L a := by
  have hl := h.1
  have h1 := zkey_div hde a.level (b.level - a.level) b.pos
  rw [show a.level + (b.level - a.level) = b.level by omega] at h1
  have h2 : (fun c => b.pos c / 2 ^ (b.level - a.level)) = a.pos := funext h.2
  rw [h2] at h1
  rw [okey_eq (by omega : a.level ≤ L), okey_eq hb, oend_eq (by omega : a.level ≤ L), oend_eq hb,
    show e * (L - a.level) = e * (b.level - a.level) + e * (L - b.level) by
      rw [← Nat.mul_add]; congr 1; omega, pow_add, ← Nat.mul_assoc, ← Nat.mul_assoc, ← h1]
  constructor
  · exact Nat.mul_le_mul_right _ (Nat.div_mul_le_self _ _)
  · apply Nat.mul_le_mul_right
    have := Nat.lt_div_mul_add (a := zkey d e b.level b.pos)
      (b := 2 ^ (e * (b.level - a.level))) (by positivity)
    rw [Nat.add_mul, Nat.one_mul]
    omega

/-- A key inside the interval of `a` belongs to a descendant of `a`. -/
theorem anc_of_okey {e L : ℕ} (hde : d ≤ e) {a b : Oct d} (hpa : ∀ i, a.pos i < 2 ^ a.level)
    (hpb : ∀ i, b.pos i < 2 ^ b.level) (hl : a.level ≤ b.level) (hb : b.level ≤ L)
    (h1 : okey e L a ≤ okey e L b) (h2 : okey e L b < oend e L a) : Anc a b := by
  rw [okey_eq (by omega : a.level ≤ L), okey_eq hb] at h1
  rw [okey_eq hb, oend_eq (by omega : a.level ≤ L)] at h2
  rw [show e * (L - a.level) = e * (b.level - a.level) + e * (L - b.level) by
      rw [← Nat.mul_add]; congr 1; omega, pow_add, ← Nat.mul_assoc] at h1 h2
  have h3 := Nat.le_of_mul_le_mul_right h1 (by positivity)
  have h4 := Nat.lt_of_mul_lt_mul_right h2
  have h5 : zkey d e b.level b.pos / 2 ^ (e * (b.level - a.level)) = zkey d e a.level a.pos :=
    Nat.div_eq_of_lt_le h3 h4
  have h6 := zkey_div hde a.level (b.level - a.level) b.pos
  rw [show a.level + (b.level - a.level) = b.level by omega, h5] at h6
  have h7 := zkey_inj hde a.level hpa (fun c => by
    rw [Nat.div_lt_iff_lt_mul (by positivity), ← pow_add,
      show a.level + (b.level - a.level) = b.level by omega]
    exact hpb c) h6
  exact ⟨hl, fun i => by rw [h7]⟩

/-- Octants with increasing keys that are not nested have disjoint key intervals. -/
theorem oend_le_of_okey_lt {e L : ℕ} (hde : d ≤ e) {a b : Oct d}
    (hpa : ∀ i, a.pos i < 2 ^ a.level) (hpb : ∀ i, b.pos i < 2 ^ b.level) (ha : a.level ≤ L)
    (hb : b.level ≤ L) (hn : ¬ Anc a b) (h : okey e L a < okey e L b) :
    oend e L a ≤ okey e L b := by
  by_contra hc
  rcases le_total a.level b.level with hl | hl
  · exact hn (anc_of_okey hde hpa hpb hl hb (le_of_lt h) (by omega))
  · push Not at hc
    rw [okey_eq ha, okey_eq hb] at h
    rw [okey_eq hb, oend_eq ha] at hc
    rw [show e * (L - b.level) = e * (a.level - b.level) + e * (L - a.level) by
      rw [← Nat.mul_add]; congr 1; omega, pow_add, ← Nat.mul_assoc] at h hc
    have h3 := Nat.lt_of_mul_lt_mul_right h
    have h4 := Nat.lt_of_mul_lt_mul_right hc
    omega

/-- In a tiling, sorting by key is the same as listing key intervals in order. -/
theorem zOrdered_of_sorted {G : Grid d} (hG : G.WF) {M : Finset (Oct d)} (hM : Tiling G M)
    {e L : ℕ} (hde : d ≤ e) (hL : ∀ a ∈ M, a.level ≤ L) {l : List (Oct d)} (hl : ∀ a ∈ l, a ∈ M)
    (hs : l.Pairwise fun a b => okey e L a < okey e L b) : ZOrdered e L l := by
  unfold ZOrdered
  refine List.Pairwise.imp_of_mem ?_ hs
  intro a b ha hb hlt
  have hva := hM.valid a (hl a ha)
  have hvb := hM.valid b (hl b hb)
  refine oend_le_of_okey_lt hde (fun i => hva.lt_pow hG i) (fun i => hvb.lt_pow hG i)
    (hL a (hl a ha)) (hL b (hl b hb)) (fun hc => ?_) hlt
  rw [hM.eq_of_anc hG (hl a ha) (hl b hb) hc] at hlt
  exact lt_irrefl _ hlt

theorem ZOrdered.sorted {e L : ℕ} {l : List (Oct d)} (h : ZOrdered e L l) :
    l.Pairwise fun a b => okey e L a < okey e L b :=
  List.Pairwise.imp (fun h1 => lt_of_lt_of_le (okey_lt_oend _ _ _) h1) h

theorem ZOrdered.nodup {e L : ℕ} {l : List (Oct d)} (h : ZOrdered e L l) : l.Nodup :=
  List.Pairwise.imp (fun h1 h2 => by rw [h2] at h1; exact lt_irrefl _ h1) h.sorted

/-- Different leaves of a tiling have different keys. -/
theorem Tiling.okey_inj {G : Grid d} (hG : G.WF) {M : Finset (Oct d)} (hM : Tiling G M)
    {e L : ℕ} (hde : d ≤ e) (hL : ∀ a ∈ M, a.level ≤ L) {a b : Oct d} (ha : a ∈ M) (hb : b ∈ M)
    (h : okey e L a = okey e L b) : a = b := by
  wlog hl : a.level ≤ b.level generalizing a b
  · exact (this hb ha h.symm (by omega)).symm
  have hva := hM.valid a ha
  have hvb := hM.valid b hb
  exact hM.eq_of_anc hG ha hb (anc_of_okey hde (fun i => hva.lt_pow hG i)
    (fun i => hvb.lt_pow hG i) hl (hL b hb) (le_of_eq h) (by rw [← h]; exact okey_lt_oend _ _ _))

end Verif.Octree
