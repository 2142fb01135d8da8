import Mathlib.Algebra.Order.Ring.Rat
import Mathlib.Tactic.NormNum
import Verif.States.Ops

/-!
# C108: states in arrays, states of different types, `StateNd`

`getConservativeState`, `getPrimitiveState` and their `set` twins with the field names they stand for,
`state_foreach_var` on states of two types, and the arrays of `core/src/states/State_Nd.h`.
-/

namespace Verif.States

/-! ### Model -/

/-- An assignment between a member and a variable of the array: the member, the enumerator of
`VarIndex`, and if it is only done for `ndim == 3`. -/
abbrev Access := String × String × Bool

/-- What a state type says about arrays. -/
structure Layout where
  /-- the enumerators of `VarIndex` in order -/
  enum : List String
  /-- `getFieldsInfo()` -/
  info : List (String × String)
  /-- the statements of the `get` function -/
  reads : List Access
  /-- the statements of the `set` function -/
  writes : List Access

variable {K : Type}

/-- The value of an enumerator. -/
def Layout.index (L : Layout) (e : String) : ℕ := L.enum.idxOf e

/-- The name of the field a `FieldAccessor` made with `getFieldsInfo()` uses for a `VarIndex`. Simplified:
the field accessors are the subject of C27; here it is the first entry with this index. -/
def Layout.field (L : Layout) (i : ℕ) : Option String :=
  (L.info.find? fun p => L.index p.2 = i).map (·.1)

/-- `res.member = U.at(iCell, enumerator)`, or with `(ndim == 3 ? ... : 0.0)`. `U` gives the variables of
the cell. -/
def Layout.load (zero : K) (L : Layout) (ndim : ℕ) (U : ℕ → K) (res : String → K) : String → K :=
  L.reads.foldl (fun res a =>
    Function.update res a.1 (if a.2.2 ∧ ndim ≠ 3 then zero else U (L.index a.2.1))) res

/-- `U.at(iCell, enumerator) = u.member`, or with `if (ndim == 3)`. -/
def Layout.store (L : Layout) (ndim : ℕ) (u : String → K) (U : ℕ → K) : ℕ → K :=
  L.writes.foldl (fun U a =>
    if a.2.2 ∧ ndim ≠ 3 then U else Function.update U (L.index a.2.1) (u a.1)) U

/-- `State_hydro.h` L15-31, L118-125, L186-193. -/
def consHydroL : Layout where
  enum := ["Irho", "Ie_tot", "Irho_vx", "Irho_vy", "Irho_vz"]
  info := [("rho", "Irho"), ("e_tot", "Ie_tot"), ("rho_vx", "Irho_vx"), ("rho_vy", "Irho_vy"),
    ("rho_vz", "Irho_vz")]
  reads := [("rho", "Irho", false), ("e_tot", "Ie_tot", false), ("rho_u", "Irho_vx", false),
    ("rho_v", "Irho_vy", false), ("rho_w", "Irho_vz", true)]
  writes := [("rho", "Irho", false), ("e_tot", "Ie_tot", false), ("rho_u", "Irho_vx", false),
    ("rho_v", "Irho_vy", false), ("rho_w", "Irho_vz", true)]

/-- `State_hydro.h` L56-72, L142-149, L164-171. -/
def primHydroL : Layout where
  enum := ["Irho", "Ip", "Iu", "Iv", "Iw"]
  info := [("rho", "Irho"), ("e_tot", "Ip"), ("rho_vx", "Iu"), ("rho_vy", "Iv"), ("rho_vz", "Iw")]
  reads := [("rho", "Irho", false), ("p", "Ip", false), ("u", "Iu", false), ("v", "Iv", false),
    ("w", "Iw", true)]
  writes := [("rho", "Irho", false), ("p", "Ip", false), ("u", "Iu", false), ("v", "Iv", false),
    ("w", "Iw", true)]

/-- `State_MHD.h` L13-36, L162-172, L239-249. -/
def consMHDL : Layout where
  enum := ["Irho", "Ie_tot", "Irho_vx", "Irho_vy", "Irho_vz", "IBx", "IBy", "IBz"]
  info := [("rho", "Irho"), ("e_tot", "Ie_tot"), ("rho_vx", "Irho_vx"), ("rho_vy", "Irho_vy"),
    ("rho_vz", "Irho_vz"), ("Bx", "IBx"), ("By", "IBy"), ("Bz", "IBz")]
  reads := [("rho", "Irho", false), ("e_tot", "Ie_tot", false), ("rho_u", "Irho_vx", false),
    ("rho_v", "Irho_vy", false), ("rho_w", "Irho_vz", true), ("Bx", "IBx", false), ("By", "IBy", false),
    ("Bz", "IBz", false)]
  writes := [("rho", "Irho", false), ("e_tot", "Ie_tot", false), ("rho_u", "Irho_vx", false),
    ("rho_v", "Irho_vy", false), ("rho_w", "Irho_vz", true), ("Bx", "IBx", false), ("By", "IBy", false),
    ("Bz", "IBz", false)]

/-- `State_MHD.h` L76-99, L189-199, L214-224. -/
def primMHDL : Layout where
  enum := ["Irho", "Ip", "Iu", "Iv", "Iw", "IBx", "IBy", "IBz"]
  info := [("rho", "Irho"), ("p", "Ip"), ("u", "Iu"), ("v", "Iv"), ("w", "Iw"), ("Bx", "IBx"),
    ("By", "IBy"), ("Bz", "IBz")]
  reads := [("rho", "Irho", false), ("p", "Ip", false), ("u", "Iu", false), ("v", "Iv", false),
    ("w", "Iw", true), ("Bx", "IBx", false), ("By", "IBy", false), ("Bz", "IBz", false)]
  writes := [("rho", "Irho", false), ("p", "Ip", false), ("u", "Iu", false), ("v", "Iv", false),
    ("w", "Iw", true), ("Bx", "IBx", false), ("By", "IBy", false), ("Bz", "IBz", false)]

/-- `State_GLMMHD.h` L16-41, L176-187, L257-269. -/
def consGLML : Layout where
  enum := ["Irho", "Ie_tot", "Irho_vx", "Irho_vy", "Irho_vz", "IBx", "IBy", "IBz", "Ipsi"]
  info := [("rho", "Irho"), ("e_tot", "Ie_tot"), ("rho_vx", "Irho_vx"), ("rho_vy", "Irho_vy"),
    ("rho_vz", "Irho_vz"), ("Bx", "IBx"), ("By", "IBy"), ("Bz", "IBz"), ("psi", "Ipsi")]
  reads := [("rho", "Irho", false), ("e_tot", "Ie_tot", false), ("rho_u", "Irho_vx", false),
    ("rho_v", "Irho_vy", false), ("rho_w", "Irho_vz", true), ("Bx", "IBx", false), ("By", "IBy", false),
    ("Bz", "IBz", false), ("psi", "Ipsi", false)]
  writes := [("rho", "Irho", false), ("e_tot", "Ie_tot", false), ("rho_u", "Irho_vx", false),
    ("rho_v", "Irho_vy", false), ("Bx", "IBx", false), ("By", "IBy", false), ("Bz", "IBz", false),
    ("rho_w", "Irho_vz", true), ("psi", "Ipsi", false)]

/-- `State_GLMMHD.h` L84-109, L204-215, L230-242. -/
def primGLML : Layout where
  enum := ["Irho", "Ip", "Iu", "Iv", "Iw", "IBx", "IBy", "IBz", "Ipsi"]
  info := [("rho", "Irho"), ("p", "Ip"), ("u", "Iu"), ("v", "Iv"), ("w", "Iw"), ("Bx", "IBx"),
    ("By", "IBy"), ("Bz", "IBz"), ("psi", "Ipsi")]
  reads := [("rho", "Irho", false), ("p", "Ip", false), ("u", "Iu", false), ("v", "Iv", false),
    ("w", "Iw", true), ("Bx", "IBx", false), ("By", "IBy", false), ("Bz", "IBz", false),
    ("psi", "Ipsi", false)]
  writes := [("rho", "Irho", false), ("p", "Ip", false), ("u", "Iu", false), ("v", "Iv", false),
    ("Bx", "IBx", false), ("By", "IBy", false), ("Bz", "IBz", false), ("w", "Iw", true),
    ("psi", "Ipsi", false)]

/-- The binary operators of `StateNd` on two arrays, `State_Nd.h` L19-27, L70-78, L121-129, L172-180:
`res` starts at 0 and all `N` elements are set. Elements are counted from 0; beyond `N` there are
none. -/
def ndSS (A : Arith K) (N : ℕ) (op : Op) (lhs rhs : ℕ → K) : ℕ → K :=
  (List.range N).foldl (fun res i => Function.update res i (match op with
    | .add => A.add (lhs i) (rhs i)
    | .sub => A.sub (lhs i) (rhs i)
    | .mul => A.mul (lhs i) (rhs i)
    | .div => A.div (lhs i) (rhs i))) (fun _ => A.zero)

/-- With a number on the right: L29-37, L80-88, L131-139, L182-190 of `State_Nd.h`. -/
def ndSR (A : Arith K) (N : ℕ) (op : Op) (lhs : ℕ → K) (rhs : K) : ℕ → K :=
  (List.range N).foldl (fun res i => Function.update res i (match op with
    | .add => A.add (lhs i) rhs
    | .sub => A.sub (lhs i) rhs
    | .mul => A.mul (lhs i) rhs
    | .div => A.div (lhs i) rhs)) (fun _ => A.zero)

/-- With a number on the left: L39-47, L90-98, L141-149, L192-200 of `State_Nd.h`. -/
def ndRS (A : Arith K) (N : ℕ) (op : Op) (lhs : K) (rhs : ℕ → K) : ℕ → K :=
  (List.range N).foldl (fun res i => Function.update res i (match op with
    | .add => A.add lhs (rhs i)
    | .sub => A.sub lhs (rhs i)
    | .mul => A.mul lhs (rhs i)
    | .div => A.div lhs (rhs i))) (fun _ => A.zero)

/-- The compound operators of `StateNd` on two arrays, `State_Nd.h` L49-57, L100-108, L151-159, L202-210: `lhs` is
changed, and the value of the expression is the array `res` that was set to 0. First `lhs` after it, then
the value. `rhs` can be `lhs` (`same`). -/
def ndCompSS (A : Arith K) (N : ℕ) (op : Op) (same : Bool) (lhs rhs : ℕ → K) : (ℕ → K) × (ℕ → K) :=
  ((List.range N).foldl (fun l i =>
    let r := if same then l i else rhs i
    Function.update l i (match op with
      | .add => A.add (l i) r
      | .sub => A.sub (l i) r
      | .mul => A.mul (l i) r
      | .div => A.div (l i) r)) lhs, fun _ => A.zero)

/-- The compound operators of `StateNd` with a number, L59-67, L110-118, L161-169, L212-220. -/
def ndCompSR (A : Arith K) (N : ℕ) (op : Op) (lhs : ℕ → K) (rhs : K) : (ℕ → K) × (ℕ → K) :=
  ((List.range N).foldl (fun l i => Function.update l i (match op with
    | .add => A.add (l i) rhs
    | .sub => A.sub (l i) rhs
    | .mul => A.mul (l i) rhs
    | .div => A.div (l i) rhs)) lhs, fun _ => A.zero)

/-! ### Specification -/

/-- The field that holds a member, for conserved states. -/
def consField : String → String
  | "rho_u" => "rho_vx"
  | "rho_v" => "rho_vy"
  | "rho_w" => "rho_vz"
  | x => x

/-- The component of the velocity or of the momentum that a 2D run does not have. -/
def Vertical (x : String) : Prop := x = "rho_w" ∨ x = "w"

instance : DecidablePred Vertical := fun x => by unfold Vertical; infer_instance

/-- The state types with what they say about arrays; the last is if they are conserved. -/
inductive IsLayout : StateType → Layout → Bool → Prop
  | consHydro : IsLayout consHydro consHydroL true
  | primHydro : IsLayout primHydro primHydroL false
  | consMHD : IsLayout consMHD consMHDL true
  | primMHD : IsLayout primMHD primMHDL false
  | consGLM : IsLayout consGLM consGLML true
  | primGLM : IsLayout primGLM primGLML false

/-! ### Theorems: arrays -/

theorem load_two (zero : K) (L : Layout) {ndim : ℕ} (hd : ndim ≠ 3) (U : ℕ → K) (res : String → K) :
    L.load zero ndim U res = L.load zero 2 U res := by simp [Layout.load, hd]

theorem store_two (L : Layout) {ndim : ℕ} (hd : ndim ≠ 3) (u : String → K) (U : ℕ → K) :
    L.store ndim u U = L.store 2 u U := by simp [Layout.store, hd]

/-- A state that is stored and read again is the same state; in 2D with 0 for the third component. -/
theorem C108_stored_and_read (zero : K) {t : StateType} {L : Layout} {c : Bool} (h : IsLayout t L c)
    (ndim : ℕ) (u : String → K) (U : ℕ → K) (res : String → K) {x : String} (hx : x ∈ t.members) :
    L.load zero ndim (L.store ndim u U) res x = if Vertical x ∧ ndim ≠ 3 then zero else u x := by
  by_cases hd : ndim = 3
  · subst hd
    cases h <;>
      simp only [consHydro, primHydro, consMHD, primMHD, consGLM, primGLM, List.mem_cons,
        List.not_mem_nil, or_false] at hx <;>
      rcases hx with rfl | rfl | rfl | rfl | rfl | rfl | rfl | rfl | rfl <;> rfl
  · rw [load_two zero L hd, store_two L hd]
    simp only [ne_eq, hd, not_false_eq_true, and_true]
    cases h <;>
      simp only [consHydro, primHydro, consMHD, primMHD, consGLM, primGLM, List.mem_cons,
        List.not_mem_nil, or_false] at hx <;>
      rcases hx with rfl | rfl | rfl | rfl | rfl | rfl | rfl | rfl | rfl <;> rfl

/-- Reading does not depend on what was in the state before: all members are read. -/
theorem C108_read_completely (zero : K) {t : StateType} {L : Layout} {c : Bool} (h : IsLayout t L c)
    (ndim : ℕ) (U : ℕ → K) (res res' : String → K) {x : String} (hx : x ∈ t.members) :
    L.load zero ndim U res x = L.load zero ndim U res' x := by
  cases h <;>
    simp only [consHydro, primHydro, consMHD, primMHD, consGLM, primGLM, List.mem_cons,
      List.not_mem_nil, or_false] at hx <;>
    rcases hx with rfl | rfl | rfl | rfl | rfl | rfl | rfl | rfl | rfl <;> rfl

/-- The members of conserved states are read from the fields with their names. `F` are the fields of the
cell, `U` a view of them as `getFieldsInfo()` says. -/
theorem C108_fields_of_members (zero : K) {t : StateType} {L : Layout} (h : IsLayout t L true) (ndim : ℕ)
    (F : String → K) (U : ℕ → K) (hU : ∀ i n, L.field i = some n → U i = F n) (res : String → K)
    {x : String} (hx : x ∈ t.members) :
    L.load zero ndim U res x = if Vertical x ∧ ndim ≠ 3 then zero else F (consField x) := by
  by_cases hd : ndim = 3
  · subst hd
    cases h <;>
      simp only [consHydro, consMHD, consGLM, List.mem_cons, List.not_mem_nil, or_false] at hx <;>
      rcases hx with rfl | rfl | rfl | rfl | rfl | rfl | rfl | rfl | rfl <;> exact hU _ _ (by decide)
  · rw [load_two zero L hd]
    simp only [ne_eq, hd, not_false_eq_true, and_true]
    cases h <;>
      simp only [consHydro, consMHD, consGLM, List.mem_cons, List.not_mem_nil, or_false] at hx <;>
      rcases hx with rfl | rfl | rfl | rfl | rfl | rfl | rfl | rfl | rfl <;>
      first | rfl | exact hU _ _ (by decide)

/-- Storing changes no variable that is not one of the state: other fields of the array stay as they are,
and in 2D the third component does. -/
theorem C108_store_keeps_others {t : StateType} {L : Layout} {c : Bool} (h : IsLayout t L c) (ndim : ℕ)
    (u : String → K) (U : ℕ → K) (i : ℕ) (hi : t.members.length ≤ i ∨ (ndim ≠ 3 ∧ i = 4)) :
    L.store ndim u U i = U i := by
  have key : ∀ {L : Layout} {n : ℕ}, (∀ a ∈ L.writes, ¬(a.2.2 ∧ n ≠ 3) → L.index a.2.1 ≠ i) →
      L.store n u U i = U i := by
    intro L n hL
    have : ∀ (l : List Access) (V : ℕ → K), (∀ a ∈ l, ¬(a.2.2 ∧ n ≠ 3) → L.index a.2.1 ≠ i) →
        l.foldl (fun U a => if a.2.2 ∧ n ≠ 3 then U else Function.update U (L.index a.2.1) (u a.1)) V i =
          V i := by
      intro l
      induction l with
      | nil => exact fun _ _ => rfl
      | cons a l ih =>
        intro V hl
        rw [List.foldl_cons, ih _ fun b hb => hl b (List.mem_cons_of_mem _ hb)]
        by_cases hc : a.2.2 ∧ n ≠ 3
        · rw [if_pos hc]
        · rw [if_neg hc, Function.update_of_ne (hl a (by simp) hc).symm]
    exact this _ _ hL
  have small : ∀ a ∈ L.writes, L.index a.2.1 < t.members.length := by cases h <;> decide
  have flat : ∀ a ∈ L.writes, a.2.2 = false → L.index a.2.1 ≠ 4 := by cases h <;> decide
  refine key fun a ha hc => ?_
  rcases hi with hi | ⟨hd, rfl⟩
  · have := small a ha
    omega
  · refine flat a ha ?_
    simpa [hd] using hc

/-- The fields of the primitive states of hydrodynamics are named like conserved ones: what
`getFieldsInfo()` of `PrimHydroState` calls `e_tot` is the pressure and `rho_vx` the velocity. -/
theorem C108_primitive_names :
    (∀ (K : Type) (zero : K) (ndim : ℕ) (F : String → K) (U : ℕ → K) (res : String → K),
      (∀ i n, primHydroL.field i = some n → U i = F n) →
      primHydroL.load zero ndim U res "p" = F "e_tot" ∧ primHydroL.load zero ndim U res "u" = F "rho_vx") ∧
    ∀ i, primHydroL.field i ≠ some "p" := by
  refine ⟨fun K zero ndim F U res hU => ⟨hU 1 _ (by decide), hU 2 _ (by decide)⟩, fun i h => ?_⟩
  unfold Layout.field at h
  obtain ⟨p, hp, hn⟩ := Option.map_eq_some_iff.1 h
  have := List.mem_of_find?_eq_some hp
  have hno : ∀ q ∈ primHydroL.info, q.1 ≠ "p" := by decide
  exact hno p this hn

/-! ### Theorems: states of two types -/

theorem foreachVar_two {s d : StateType} (hs : Declared s) (hd : Declared d) (f : List Loc → Mem K → Mem K)
    (o p : ℕ) (I : ℕ) (hI : I < d.nvars) (hJ : I < s.nvars) (m : Mem K) :
    foreachVar f ⟨d, o⟩ [⟨s, p⟩] I m =
      some (((d.members.zip s.members).drop I).foldl (fun m z => f [(o, z.1), (p, z.2)] m) m) := by
  induction hk : d.nvars - I generalizing I m with
  | zero => omega
  | succ k ih =>
    rw [foreachVar]
    have hl : I < (d.members.zip s.members).length := by
      rw [List.length_zip, hs.length, hd.length]; omega
    have hm : [(⟨d, o⟩ : Ref), ⟨s, p⟩].mapM (stateGet I) =
        some [(o, ((d.members.zip s.members)[I]).1), (p, ((d.members.zip s.members)[I]).2)] := by
      simp [stateGet, hs.get_eq hJ, hd.get_eq hI]
    rw [hm]
    have hdrop := List.drop_eq_getElem_cons hl
    by_cases hn : I + 1 < d.nvars ∧ I + 1 < s.nvars
    · have hall : ∀ r ∈ [(⟨d, o⟩ : Ref), ⟨s, p⟩], I + 1 < r.ty.nvars := by
        intro r hr
        simp only [List.mem_cons, List.not_mem_nil, or_false] at hr
        rcases hr with rfl | rfl
        · exact hn.1
        · exact hn.2
      simp only [if_pos hall]
      rw [ih (I + 1) hn.1 hn.2 _ (by omega), hdrop]
      rfl
    · have hall : ¬∀ r ∈ [(⟨d, o⟩ : Ref), ⟨s, p⟩], I + 1 < r.ty.nvars := fun hr =>
        hn ⟨hr ⟨d, o⟩ (by simp), hr ⟨s, p⟩ (by simp)⟩
      simp only [if_neg hall]
      rw [hdrop, List.drop_eq_nil_of_le (by rw [List.length_zip, hs.length, hd.length]; omega)]
      rfl

theorem copied_fold {o p : ℕ} (h : o ≠ p) : ∀ (l : List (String × String)), (l.map (·.1)).Nodup →
    ∀ m : Mem K,
      (∀ z ∈ l, l.foldl (fun m z => Function.update m (o, z.1) (m (p, z.2))) m (o, z.1) = m (p, z.2)) ∧
      ∀ q : Loc, (q.1 ≠ o ∨ q.2 ∉ l.map (·.1)) →
        l.foldl (fun m z => Function.update m (o, z.1) (m (p, z.2))) m q = m q := by
  intro l
  induction l with
  | nil => exact fun _ m => ⟨by simp, fun _ _ => rfl⟩
  | cons a l ih =>
    intro hn m
    rw [List.map_cons, List.nodup_cons] at hn
    obtain ⟨h1, h2⟩ := ih hn.2 (Function.update m (o, a.1) (m (p, a.2)))
    have hp : ∀ y, Function.update m (o, a.1) (m (p, a.2)) (p, y) = m (p, y) := fun y =>
      Function.update_of_ne (by simp [Ne.symm h]) _ _
    rw [List.foldl_cons]
    refine ⟨fun z hz => ?_, fun q hq => ?_⟩
    · rcases List.mem_cons.1 hz with rfl | hz
      · rw [h2 _ (Or.inr hn.1), Function.update_self]
      · rw [h1 z hz, hp]
    · rw [h2 q (hq.imp id fun hc hm => hc (by rw [List.map_cons]; exact List.mem_cons_of_mem _ hm)),
        Function.update_of_ne]
      rintro rfl
      rcases hq with hq | hq
      · exact hq rfl
      · exact hq (by simp)

/-- `state_foreach_var` on states of two types visits the variables that both have, in the order of the
indices: the first 5 if one is a state of hydrodynamics and the other of magnetohydrodynamics. Here for
the assignment of the variables of `p` to those of `o`; nothing else changes. -/
theorem C108_mixed_types {s d : StateType} (hs : IsState s) (hd : IsState d) {o p : ℕ} (h : o ≠ p)
    (m : Mem K) :
    ∃ m', foreachVar (fun l m => match l with
        | [a, b] => Function.update m a (m b)
        | _ => m) ⟨d, o⟩ [⟨s, p⟩] 0 m = some m' ∧
      (∀ (i : ℕ) (x y : String), d.members[i]? = some x → s.members[i]? = some y →
        m' (o, x) = m (p, y)) ∧
      (∀ (i : ℕ) (x : String), s.members.length ≤ i → d.members[i]? = some x → m' (o, x) = m (o, x)) ∧
      ∀ q : Loc, q.1 ≠ o → m' q = m q := by
  have hs' := hs.declared
  have hd' := hd.declared
  refine ⟨_, foreachVar_two hs' hd' _ o p 0 hd'.pos hs'.pos m, ?_⟩
  rw [List.drop_zero]
  have hz : (d.members.zip s.members).map (·.1) = d.members.take s.members.length := by
    generalize d.members = a
    generalize s.members = b
    induction a generalizing b with
    | nil => simp
    | cons a l ih => cases b <;> simp_all
  have hn : ((d.members.zip s.members).map (·.1)).Nodup := by
    rw [hz]
    exact hd'.nodup.sublist (List.take_sublist _ _)
  obtain ⟨h1, h2⟩ := copied_fold h _ hn m
  refine ⟨fun i x y hx hy => ?_, fun i x hi hx => ?_, fun q hq => h2 q (Or.inl hq)⟩
  · refine h1 (x, y) (List.mem_of_getElem? (i := i) ?_)
    rw [List.getElem?_zip_eq_some]
    exact ⟨hx, hy⟩
  · refine h2 (o, x) (Or.inr ?_)
    rw [hz]
    intro hm
    obtain ⟨j, hj, e⟩ := List.mem_iff_getElem.1 hm
    obtain ⟨hi', e'⟩ := List.getElem?_eq_some_iff.1 hx
    rw [List.getElem_take] at e
    rw [List.length_take] at hj
    have := (List.Nodup.getElem_inj_iff hd'.nodup).1 (e.trans e'.symm)
    omega

/-! ### Theorems: `StateNd` -/

theorem fold_range (N : ℕ) (g : ℕ → (ℕ → K) → K)
    (hg : ∀ i j l v, i ≠ j → g i (Function.update l j v) = g i l) (l : ℕ → K) (i : ℕ) :
    (List.range N).foldl (fun l i => Function.update l i (g i l)) l i = if i < N then g i l else l i := by
  induction N generalizing i with
  | zero => rfl
  | succ N ih =>
    rw [List.range_succ, List.foldl_append, List.foldl_cons, List.foldl_nil]
    have hother : ∀ M, M ≤ N → g N ((List.range M).foldl (fun l i => Function.update l i (g i l)) l) = g N l := by
      intro M
      induction M with
      | zero => exact fun _ => rfl
      | succ M ihM =>
        intro hM
        rw [List.range_succ, List.foldl_append, List.foldl_cons, List.foldl_nil, hg N M _ _ (by omega),
          ihM (by omega)]
    by_cases hi : i = N
    · subst hi
      rw [Function.update_self, if_pos (by omega), hother i le_rfl]
    · rw [Function.update_of_ne hi, ih]
      by_cases h : i < N
      · rw [if_pos h, if_pos (by omega)]
      · rw [if_neg h, if_neg (by omega)]

/-- The binary operators of `StateNd` work on every element. -/
theorem C108_nd (A : Arith K) (N : ℕ) (op : Op) (lhs rhs : ℕ → K) (r : K) {i : ℕ} (hi : i < N) :
    ndSS A N op lhs rhs i = A.value op (lhs i) (rhs i) ∧ ndSR A N op lhs r i = A.value op (lhs i) r ∧
      ndRS A N op r rhs i = A.value op r (rhs i) := by
  have h1 := fold_range N (fun i _ => A.value op (lhs i) (rhs i)) (fun _ _ _ _ _ => rfl)
    (fun _ => A.zero) i
  have h2 := fold_range N (fun i _ => A.value op (lhs i) r) (fun _ _ _ _ _ => rfl) (fun _ => A.zero) i
  have h3 := fold_range N (fun i _ => A.value op r (rhs i)) (fun _ _ _ _ _ => rfl) (fun _ => A.zero) i
  rw [if_pos hi] at h1 h2 h3
  cases op <;> exact ⟨h1, h2, h3⟩

/-- The compound operators of `StateNd` change every element of the left hand side as they should, also if
both sides are the same array. What is missing for the full property is the value of the expression
(`C108_nd_compound_value`). -/
theorem C108_nd_compound_partial (A : Arith K) (N : ℕ) (op : Op) (lhs rhs : ℕ → K) (r : K) {i : ℕ}
    (hi : i < N) :
    (ndCompSS A N op false lhs rhs).1 i = A.value op (lhs i) (rhs i) ∧
      (ndCompSS A N op true lhs lhs).1 i = A.value op (lhs i) (lhs i) ∧
      (ndCompSR A N op lhs r).1 i = A.value op (lhs i) r := by
  have h1 := fold_range N (fun i l => A.value op (l i) (rhs i))
    (fun a b l v h => by rw [Function.update_of_ne h]) lhs i
  have h2 := fold_range N (fun i l => A.value op (l i) (l i))
    (fun a b l v h => by rw [Function.update_of_ne h]) lhs i
  have h3 := fold_range N (fun i l => A.value op (l i) r)
    (fun a b l v h => by rw [Function.update_of_ne h]) lhs i
  rw [if_pos hi] at h1 h2 h3
  cases op <;> exact ⟨h1, h2, h3⟩

/-- The value of `lhs op= rhs` for a `StateNd` is not `lhs`, as it is for the other states
(`C108_compound_state`): it differs in every element in which the result is not 0. -/
theorem C108_nd_compound_value (A : Arith K) (N : ℕ) (op : Op) (lhs rhs : ℕ → K) (r : K) {i : ℕ}
    (hi : i < N) :
    (A.value op (lhs i) (rhs i) ≠ A.zero →
      (ndCompSS A N op false lhs rhs).2 i ≠ (ndCompSS A N op false lhs rhs).1 i) ∧
      (A.value op (lhs i) r ≠ A.zero → (ndCompSR A N op lhs r).2 i ≠ (ndCompSR A N op lhs r).1 i) := by
  obtain ⟨h1, -, h3⟩ := C108_nd_compound_partial A N op lhs rhs r hi
  rw [h1, h3]
  exact ⟨fun h => h.symm, fun h => h.symm⟩

/-! ### Examples -/

/-- Numbers for the examples. -/
def ratArith : Arith ℚ := ⟨0, (· + ·), (· - ·), (· * ·), (· / ·)⟩

/-- Object 1 holds 2 in all members, object 2 holds 3, object 3 what is left from before. -/
def twoThree : Mem ℚ := fun l => if l.1 = 1 then 2 else if l.1 = 2 then 3 else 77

example : ∃ m', opSS ratArith consGLM .sub 3 1 2 twoThree = some m' ∧ m' (3, "psi") = -1 ∧
    m' (1, "psi") = 2 := by
  obtain ⟨m', h, a⟩ := C108_state_state ratArith IsState.consGLM .sub (new := 3) (lhs := 1) (rhs := 2)
    (by decide) (by decide) twoThree
  refine ⟨m', h, (a.1 _ (by decide)).trans ?_, (a.2 _ (Or.inl (by decide))).trans ?_⟩
  · norm_num [Arith.value, ratArith, twoThree]
  · norm_num [twoThree]

/-- `u -= u` gives 0. -/
example : ∃ m', compSS ratArith primMHD .sub 1 1 twoThree = some (m', 1) ∧ m' (1, "w") = 0 := by
  obtain ⟨m', h, a⟩ := C108_compound_state ratArith IsState.primMHD .sub 1 1 twoThree
  exact ⟨m', h, (a.1 _ (by decide)).trans (by norm_num [Arith.value, ratArith])⟩

/-- `u /= u.rho` gives 1 in all members that were equal to it. -/
example : ∃ m', compSR ratArith consHydro .div 1 (twoThree (1, "rho")) twoThree = some (m', 1) ∧
    m' (1, "rho") = 1 ∧ m' (1, "rho_w") = 1 := by
  obtain ⟨m', h, a⟩ := C108_compound_own_member ratArith IsState.consHydro .div 1 "rho" twoThree
  refine ⟨m', h, (a _ (by decide)).trans ?_, (a _ (by decide)).trans ?_⟩ <;>
    norm_num [Arith.value, ratArith, twoThree]

example : ∃ m', opSR ratArith primHydro .div 3 2 3 twoThree = some m' ∧ m' (3, "p") = 1 := by
  obtain ⟨m', h, a⟩ := C108_state_number ratArith IsState.primHydro .div (new := 3) (lhs := 2) 3 (by decide)
    twoThree
  exact ⟨m', h, (a.1 _ (by decide)).trans (by norm_num [Arith.value, ratArith, twoThree])⟩

example : ∃ m', opRS ratArith consMHD .sub 3 1 2 twoThree = some m' ∧ m' (3, "Bz") = -2 := by
  obtain ⟨m', h, a⟩ := C108_number_state ratArith IsState.consMHD .sub (new := 3) (rhs := 2) 1 (by decide)
    twoThree
  exact ⟨m', h, (a.1 _ (by decide)).trans (by norm_num [Arith.value, ratArith, twoThree])⟩

/-- A state of hydrodynamics assigned to one of magnetohydrodynamics: the magnetic field stays. -/
example : ∃ m', foreachVar (fun l m => match l with
        | [a, b] => Function.update m a (m b)
        | _ => m) ⟨consMHD, 1⟩ [⟨consHydro, 2⟩] 0 twoThree = some m' ∧ m' (1, "rho_w") = 3 ∧
      m' (1, "Bx") = 2 := by
  obtain ⟨m', h, h1, h2, -⟩ := C108_mixed_types IsState.consHydro IsState.consMHD (o := 1) (p := 2)
    (by decide) twoThree
  refine ⟨m', h, (h1 4 _ _ rfl rfl).trans ?_, (h2 5 _ (by decide) rfl).trans ?_⟩ <;> norm_num [twoThree]

/-- A 2D state in an array whose third momentum is 9: it is neither read nor written. -/
example : consHydroL.load (0 : ℚ) 2 (consHydroL.store 2 (fun _ => 5) (fun _ => 9)) (fun _ => 1) "rho_w" = 0 ∧
    consHydroL.load (0 : ℚ) 2 (consHydroL.store 2 (fun _ => 5) (fun _ => 9)) (fun _ => 1) "rho_v" = 5 ∧
    consHydroL.store 2 (fun _ => (5 : ℚ)) (fun _ => 9) 4 = 9 := by
  refine ⟨(C108_stored_and_read 0 .consHydro 2 _ _ _ (by decide)).trans (if_pos (by decide)),
    (C108_stored_and_read 0 .consHydro 2 _ _ _ (by decide)).trans (if_neg (by decide)),
    C108_store_keeps_others .consHydro 2 _ _ 4 (Or.inr ⟨by decide, rfl⟩)⟩

/-- A view in the order of the enumerators meets the hypothesis of `C108_fields_of_members`. -/
example : ∀ (F : String → ℚ), ∀ i n, consMHDL.field i = some n →
    (fun i => F ((consMHDL.field i).getD "")) i = F n := by
  intro F i n h
  simp [h]

/-- `a += b` for arrays of 3 elements: `a` is right, the value of the expression is 0. -/
example : (ndCompSS ratArith 3 .add false (fun _ => 1) (fun _ => 2)).1 2 = 3 ∧
    (ndCompSS ratArith 3 .add false (fun _ => 1) (fun _ => 2)).2 2 ≠
      (ndCompSS ratArith 3 .add false (fun _ => 1) (fun _ => 2)).1 2 := by
  refine ⟨(C108_nd_compound_partial ratArith 3 .add (fun _ => 1) (fun _ => 2) 0 (by decide)).1.trans ?_,
    (C108_nd_compound_value ratArith 3 .add (fun _ => 1) (fun _ => 2) 0 (by decide)).1 ?_⟩ <;>
    norm_num [Arith.value, ratArith]

end Verif.States
