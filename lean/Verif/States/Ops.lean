import Mathlib.Data.List.Basic
import Mathlib.Data.List.Nodup
import Mathlib.Data.List.Perm.Basic
import Mathlib.Logic.Function.Basic

/-!
# C108: arithmetic on states

Models of `core/src/states/State_Ops.h` and of the tables of `State_hydro.h`, `State_MHD.h` and
`State_GLMMHD.h` that it works with. Objects live in a memory, so that two operands can be the same
object. Numbers are of any type and the four operations are any functions, so that the theorems hold
for floating point numbers too.
-/

namespace Verif.States

/-! ### Model -/

/-- A member variable of an object: the number of the object and the name of the member. -/
abbrev Loc := ℕ × String

/-- What the members of all objects hold. -/
abbrev Mem (K : Type) := Loc → K

/-- The operations of the processor on `real_t`. -/
structure Arith (K : Type) where
  zero : K
  add : K → K → K
  sub : K → K → K
  mul : K → K → K
  div : K → K → K

/-- A structure with what `DECLARE_STATE_TYPE` and `DECLARE_STATE_GET` say of it
(`State_Ops.h` L28-55). -/
structure StateType where
  /-- the member variables of the structure -/
  members : List String
  /-- `State_traits<State>::nvars` -/
  nvars : ℕ
  /-- the declared indices and their variables -/
  gets : List (ℕ × String)

/-- `State_traits<State>::get<I>`, `State_Ops.h` L34-41 and L49-55: without a declaration for `I` the code does not
compile (`none`). -/
def StateType.get (t : StateType) (I : ℕ) : Option String := t.gets.lookup I

/-- A state that is passed to a function by reference. -/
structure Ref where
  ty : StateType
  obj : ℕ

/-- `state_get<I>`, `State_Ops.h` L57-71: the address of the variable. -/
def stateGet (I : ℕ) (s : Ref) : Option Loc := (s.ty.get I).map fun x => (s.obj, x)

/-- `state_foreach_var<I>`, `State_Ops.h` L85-92, for the states `s0, ss...`: `f` gets the addresses of the variables
`I`, then the same for `I + 1` if all states have that many variables. `none` if it does not compile. -/
def foreachVar {K : Type} (f : List Loc → Mem K → Mem K) (s0 : Ref) (ss : List Ref) (I : ℕ)
    (m : Mem K) : Option (Mem K) :=
  match (s0 :: ss).mapM (stateGet I) with
  | none => none
  | some locs =>
    if ∀ s ∈ s0 :: ss, I + 1 < s.ty.nvars then foreachVar f s0 ss (I + 1) (f locs m)
    else some (f locs m)
termination_by s0.ty.nvars - I
decreasing_by
  have := ‹∀ s ∈ s0 :: ss, I + 1 < s.ty.nvars› s0 (by simp)
  omega

/-- The four operators. -/
inductive Op
  | add | sub | mul | div

variable {K : Type}

/-- `State_t res;`: the members are initialised by 0 (`State_hydro.h` L38-42, L79-83, `State_MHD.h`
L52-59, L115-122, `State_GLMMHD.h` L58-66, L127-135). -/
def construct (A : Arith K) (t : StateType) (new : ℕ) (m : Mem K) : Mem K :=
  fun l => if l.1 = new ∧ l.2 ∈ t.members then A.zero else m l

/-- `[](real_t& res, real_t l, real_t r){res=l op r;}` of `operator+`, `operator-`, `operator*`
and `operator/`: `State_Ops.h` L106, L153, L200, L247. -/
def assignSS (A : Arith K) : Op → List Loc → Mem K → Mem K
  | .add, [res, l, r], m => Function.update m res (A.add (m l) (m r))
  | .sub, [res, l, r], m => Function.update m res (A.sub (m l) (m r))
  | .mul, [res, l, r], m => Function.update m res (A.mul (m l) (m r))
  | .div, [res, l, r], m => Function.update m res (A.div (m l) (m r))
  | _, _, m => m

/-- `[&](real_t& res, real_t l){res=l op rhs;}`: `State_Ops.h` L116, L163, L210, L257. -/
def assignSR (A : Arith K) (rhs : K) : Op → List Loc → Mem K → Mem K
  | .add, [res, l], m => Function.update m res (A.add (m l) rhs)
  | .sub, [res, l], m => Function.update m res (A.sub (m l) rhs)
  | .mul, [res, l], m => Function.update m res (A.mul (m l) rhs)
  | .div, [res, l], m => Function.update m res (A.div (m l) rhs)
  | _, _, m => m

/-- `[&](real_t& res, real_t r){res=lhs op r;}`: `State_Ops.h` L126, L173, L220, L267. -/
def assignRS (A : Arith K) (lhs : K) : Op → List Loc → Mem K → Mem K
  | .add, [res, r], m => Function.update m res (A.add lhs (m r))
  | .sub, [res, r], m => Function.update m res (A.sub lhs (m r))
  | .mul, [res, r], m => Function.update m res (A.mul lhs (m r))
  | .div, [res, r], m => Function.update m res (A.div lhs (m r))
  | _, _, m => m

/-- `[&](real_t& l, real_t r){l op= r;}`: `State_Ops.h` L134, L181, L228, L275. -/
def updateSS (A : Arith K) : Op → List Loc → Mem K → Mem K
  | .add, [l, r], m => Function.update m l (A.add (m l) (m r))
  | .sub, [l, r], m => Function.update m l (A.sub (m l) (m r))
  | .mul, [l, r], m => Function.update m l (A.mul (m l) (m r))
  | .div, [l, r], m => Function.update m l (A.div (m l) (m r))
  | _, _, m => m

/-- `[&](real_t& l){l op= rhs;}`: `State_Ops.h` L142, L189, L236, L283. -/
def updateSR (A : Arith K) (rhs : K) : Op → List Loc → Mem K → Mem K
  | .add, [l], m => Function.update m l (A.add (m l) rhs)
  | .sub, [l], m => Function.update m l (A.sub (m l) rhs)
  | .mul, [l], m => Function.update m l (A.mul (m l) rhs)
  | .div, [l], m => Function.update m l (A.div (m l) rhs)
  | _, _, m => m

/-- `lhs op rhs` for two states of the same type (`State_Ops.h` L100-108, L147-155, L194-202,
L241-249); the result is the object `new`. -/
def opSS (A : Arith K) (t : StateType) (op : Op) (new lhs rhs : ℕ) (m : Mem K) : Option (Mem K) :=
  foreachVar (assignSS A op) ⟨t, new⟩ [⟨t, lhs⟩, ⟨t, rhs⟩] 0 (construct A t new m)

/-- `lhs op rhs` for a state and a number, which is passed by value (`State_Ops.h` L110-118, L157-165,
L204-212, L251-259). -/
def opSR (A : Arith K) (t : StateType) (op : Op) (new lhs : ℕ) (rhs : K) (m : Mem K) : Option (Mem K) :=
  foreachVar (assignSR A rhs op) ⟨t, new⟩ [⟨t, lhs⟩] 0 (construct A t new m)

/-- `lhs op rhs` for a number and a state (`State_Ops.h` L120-128, L167-175, L214-222,
L261-269). -/
def opRS (A : Arith K) (t : StateType) (op : Op) (new : ℕ) (lhs : K) (rhs : ℕ) (m : Mem K) :
    Option (Mem K) :=
  foreachVar (assignRS A lhs op) ⟨t, new⟩ [⟨t, rhs⟩] 0 (construct A t new m)

/-- `lhs op= rhs` for two states (`State_Ops.h` L130-136, L177-183, L224-230, L271-277) with the object
that the reference that is returned refers to. -/
def compSS (A : Arith K) (t : StateType) (op : Op) (lhs rhs : ℕ) (m : Mem K) : Option (Mem K × ℕ) :=
  (foreachVar (updateSS A op) ⟨t, lhs⟩ [⟨t, rhs⟩] 0 m).map fun m => (m, lhs)

/-- `lhs op= rhs` for a state and a number (`State_Ops.h` L138-144, L185-191, L232-238,
L279-285). -/
def compSR (A : Arith K) (t : StateType) (op : Op) (lhs : ℕ) (rhs : K) (m : Mem K) :
    Option (Mem K × ℕ) :=
  (foreachVar (updateSR A rhs op) ⟨t, lhs⟩ [] 0 m).map fun m => (m, lhs)

/-- `ConsHydroState`: `State_hydro.h` L38-50. -/
def consHydro : StateType where
  members := ["rho", "e_tot", "rho_u", "rho_v", "rho_w"]
  nvars := 5
  gets := [(0, "rho"), (1, "e_tot"), (2, "rho_u"), (3, "rho_v"), (4, "rho_w")]

/-- `PrimHydroState`: `State_hydro.h` L79-91. -/
def primHydro : StateType where
  members := ["rho", "p", "u", "v", "w"]
  nvars := 5
  gets := [(0, "rho"), (1, "p"), (2, "u"), (3, "v"), (4, "w")]

/-- `ConsMHDState`: `State_MHD.h` L52-70. -/
def consMHD : StateType where
  members := ["rho", "e_tot", "rho_u", "rho_v", "rho_w", "Bx", "By", "Bz"]
  nvars := 8
  gets := [(0, "rho"), (1, "e_tot"), (2, "rho_u"), (3, "rho_v"), (4, "rho_w"), (5, "Bx"), (6, "By"),
    (7, "Bz")]

/-- `PrimMHDState`: `State_MHD.h` L115-133. -/
def primMHD : StateType where
  members := ["rho", "p", "u", "v", "w", "Bx", "By", "Bz"]
  nvars := 8
  gets := [(0, "rho"), (1, "p"), (2, "u"), (3, "v"), (4, "w"), (5, "Bx"), (6, "By"), (7, "Bz")]

/-- `ConsGLMMHDState`: `State_GLMMHD.h` L58-78. -/
def consGLM : StateType where
  members := ["rho", "e_tot", "rho_u", "rho_v", "rho_w", "Bx", "By", "Bz", "psi"]
  nvars := 9
  gets := [(0, "rho"), (1, "e_tot"), (2, "rho_u"), (3, "rho_v"), (4, "rho_w"), (5, "Bx"), (6, "By"),
    (7, "Bz"), (8, "psi")]

/-- `PrimGLMMHDState`: `State_GLMMHD.h` L127-147. -/
def primGLM : StateType where
  members := ["rho", "p", "u", "v", "w", "Bx", "By", "Bz", "psi"]
  nvars := 9
  gets := [(0, "rho"), (1, "p"), (2, "u"), (3, "v"), (4, "w"), (5, "Bx"), (6, "By"), (7, "Bz"),
    (8, "psi")]

/-! ### Specification -/

/-- The value of `l op r`. -/
def Arith.value (A : Arith K) : Op → K → K → K
  | .add => A.add
  | .sub => A.sub
  | .mul => A.mul
  | .div => A.div

/-- The state types of the code. -/
inductive IsState : StateType → Prop
  | consHydro : IsState consHydro
  | primHydro : IsState primHydro
  | consMHD : IsState consMHD
  | primMHD : IsState primMHD
  | consGLM : IsState consGLM
  | primGLM : IsState primGLM

/-- `m'` differs from `m` only in that the members `xs` of the object `o` have the values `v`. -/
def Assigned (xs : List String) (o : ℕ) (v : String → K) (m m' : Mem K) : Prop :=
  (∀ x ∈ xs, m' (o, x) = v x) ∧ ∀ l : Loc, (l.1 ≠ o ∨ l.2 ∉ xs) → m' l = m l

/-! ### Lemmas -/

/-- The tables declare every member once, and nothing else. -/
structure Declared (t : StateType) : Prop where
  pos : 0 < t.nvars
  names : (List.range t.nvars).map t.get = t.members.map some
  nodup : t.members.Nodup

theorem IsState.declared {t : StateType} (h : IsState t) : Declared t := by
  cases h <;> exact ⟨by decide, by decide, by decide⟩

theorem Declared.length {t : StateType} (h : Declared t) : t.members.length = t.nvars := by
  simpa using (congrArg List.length h.names).symm

theorem Declared.get_eq {t : StateType} (h : Declared t) {I : ℕ} (hI : I < t.nvars) :
    t.get I = some (t.members[I]'(by rw [h.length]; exact hI)) := by
  have := congrArg (fun l => l[I]?) h.names
  simpa [hI, h.length] using this

/-- What `state_foreach_var` does from the variable `I` on, for states of one type. -/
theorem foreachVar_eq {t : StateType} (h : Declared t) (f : List Loc → Mem K → Mem K) (o : ℕ)
    (os : List ℕ) (I : ℕ) (hI : I < t.nvars) (m : Mem K) :
    foreachVar f ⟨t, o⟩ (os.map fun p => ⟨t, p⟩) I m =
      some ((t.members.drop I).foldl (fun m x => f ((o :: os).map fun p => (p, x)) m) m) := by
  induction hk : t.nvars - I generalizing I m with
  | zero => omega
  | succ k ih =>
    rw [foreachVar]
    have hm : ((⟨t, o⟩ : Ref) :: os.map fun p => (⟨t, p⟩ : Ref)).mapM (stateGet I) =
        some ((o :: os).map fun p => (p, t.members[I]'(by rw [h.length]; exact hI))) := by
      rw [show ((⟨t, o⟩ : Ref) :: os.map fun p => (⟨t, p⟩ : Ref)) = (o :: os).map fun p => ⟨t, p⟩ from rfl]
      generalize o :: os = l
      induction l with
      | nil => rfl
      | cons a l ihl =>
        rw [List.map_cons, List.mapM_cons, ihl]
        simp [stateGet, h.get_eq hI]
    rw [hm]
    have hd : t.members.drop I = t.members[I]'(by rw [h.length]; exact hI) :: t.members.drop (I + 1) :=
      List.drop_eq_getElem_cons (by rw [h.length]; exact hI)
    by_cases hn : I + 1 < t.nvars
    · have hall : ∀ s ∈ ((⟨t, o⟩ : Ref) :: os.map fun p => (⟨t, p⟩ : Ref)), I + 1 < s.ty.nvars := by
        intro s hs
        simp only [List.mem_cons, List.mem_map] at hs
        rcases hs with rfl | ⟨p, _, rfl⟩ <;> exact hn
      simp only [if_pos hall]
      rw [ih (I + 1) hn _ (by omega), hd]
      rfl
    · have hall : ¬∀ s ∈ ((⟨t, o⟩ : Ref) :: os.map fun p => (⟨t, p⟩ : Ref)), I + 1 < s.ty.nvars := by
        intro hs
        exact hn (hs ⟨t, o⟩ (by simp))
      simp only [if_neg hall]
      rw [hd, List.drop_eq_nil_of_le (by rw [h.length]; omega)]
      rfl

/-- Members that are assigned one after the other from variables of the same index. -/
theorem assigned_fold (o : ℕ) (g : String → Mem K → K)
    (hg : ∀ x y m v, x ≠ y → g x (Function.update m (o, y) v) = g x m) :
    ∀ (xs : List String), xs.Nodup → ∀ m : Mem K,
      Assigned xs o (fun x => g x m) m
        (xs.foldl (fun m x => Function.update m (o, x) (g x m)) m) := by
  intro xs
  induction xs with
  | nil => exact fun _ m => ⟨by simp, fun l _ => rfl⟩
  | cons y xs ih =>
    intro hn m
    rw [List.nodup_cons] at hn
    obtain ⟨h1, h2⟩ := ih hn.2 (Function.update m (o, y) (g y m))
    rw [List.foldl_cons]
    refine ⟨?_, ?_⟩
    · intro x hx
      rcases List.mem_cons.1 hx with rfl | hx
      · rw [h2 _ (Or.inr hn.1), Function.update_self]
      · exact (h1 x hx).trans (hg x y _ _ (fun e => hn.1 (e ▸ hx)))
    · intro l hl
      have hl' : l.1 ≠ o ∨ l.2 ∉ xs := hl.imp id (fun h hc => h (List.mem_cons_of_mem _ hc))
      rw [h2 l hl', Function.update_of_ne]
      rintro rfl
      rcases hl with hl | hl
      · exact hl rfl
      · exact hl (by simp)

theorem upd_ne {m : Mem K} {o p : ℕ} {x y : String} {v : K} (h : x ≠ y) :
    Function.update m (o, y) v (p, x) = m (p, x) :=
  Function.update_of_ne (by simp [h]) _ _

theorem assignSS_eq (A : Arith K) (op : Op) (a b c : Loc) (m : Mem K) :
    assignSS A op [a, b, c] m = Function.update m a (A.value op (m b) (m c)) := by cases op <;> rfl

theorem assignSR_eq (A : Arith K) (r : K) (op : Op) (a b : Loc) (m : Mem K) :
    assignSR A r op [a, b] m = Function.update m a (A.value op (m b) r) := by cases op <;> rfl

theorem assignRS_eq (A : Arith K) (r : K) (op : Op) (a b : Loc) (m : Mem K) :
    assignRS A r op [a, b] m = Function.update m a (A.value op r (m b)) := by cases op <;> rfl

theorem updateSS_eq (A : Arith K) (op : Op) (a b : Loc) (m : Mem K) :
    updateSS A op [a, b] m = Function.update m a (A.value op (m a) (m b)) := by cases op <;> rfl

theorem updateSR_eq (A : Arith K) (r : K) (op : Op) (a : Loc) (m : Mem K) :
    updateSR A r op [a] m = Function.update m a (A.value op (m a) r) := by cases op <;> rfl

theorem construct_of_ne (A : Arith K) (t : StateType) {new p : ℕ} (h : p ≠ new) (m : Mem K) (x : String) :
    construct A t new m (p, x) = m (p, x) := by simp [construct, h]

/-- What is assigned to all members of a new object. -/
theorem assigned_construct {A : Arith K} {t : StateType} {new : ℕ} {v w : String → K} {m m' : Mem K}
    (h : Assigned t.members new v (construct A t new m) m') (hv : ∀ x, v x = w x) :
    Assigned t.members new w m m' := by
  refine ⟨fun x hx => (h.1 x hx).trans (hv x), fun l hl => (h.2 l hl).trans ?_⟩
  simp only [construct]
  rw [if_neg]
  rintro ⟨h1, h2⟩
  rcases hl with hl | hl
  · exact hl h1
  · exact hl h2

/-! ### Theorems -/

/-- `lhs op rhs` of two states has in every member the value of `op` on that member of the operands, and
changes nothing else. The operands can be the same object. -/
theorem C108_state_state (A : Arith K) {t : StateType} (ht : IsState t) (op : Op) {new lhs rhs : ℕ}
    (hl : lhs ≠ new) (hr : rhs ≠ new) (m : Mem K) :
    ∃ m', opSS A t op new lhs rhs m = some m' ∧
      Assigned t.members new (fun x => A.value op (m (lhs, x)) (m (rhs, x))) m m' := by
  have h := ht.declared
  refine ⟨_, foreachVar_eq h _ new [lhs, rhs] 0 h.pos _, ?_⟩
  simp only [List.drop_zero, List.map_cons, List.map_nil, assignSS_eq]
  refine assigned_construct (assigned_fold new (fun x m => A.value op (m (lhs, x)) (m (rhs, x))) ?_ _
    h.nodup _) ?_
  · intro x y m v hxy
    simp only [upd_ne hxy]
  · intro x
    simp only [construct_of_ne A t hl, construct_of_ne A t hr]

/-- `lhs op rhs` of a state and a number. -/
theorem C108_state_number (A : Arith K) {t : StateType} (ht : IsState t) (op : Op) {new lhs : ℕ} (rhs : K)
    (hl : lhs ≠ new) (m : Mem K) :
    ∃ m', opSR A t op new lhs rhs m = some m' ∧
      Assigned t.members new (fun x => A.value op (m (lhs, x)) rhs) m m' := by
  have h := ht.declared
  refine ⟨_, foreachVar_eq h _ new [lhs] 0 h.pos _, ?_⟩
  simp only [List.drop_zero, List.map_cons, List.map_nil, assignSR_eq]
  refine assigned_construct (assigned_fold new (fun x m => A.value op (m (lhs, x)) rhs) ?_ _
    h.nodup _) ?_
  · intro x y m v hxy
    simp only [upd_ne hxy]
  · intro x
    simp only [construct_of_ne A t hl]

/-- `lhs op rhs` of a number and a state. -/
theorem C108_number_state (A : Arith K) {t : StateType} (ht : IsState t) (op : Op) {new rhs : ℕ} (lhs : K)
    (hr : rhs ≠ new) (m : Mem K) :
    ∃ m', opRS A t op new lhs rhs m = some m' ∧
      Assigned t.members new (fun x => A.value op lhs (m (rhs, x))) m m' := by
  have h := ht.declared
  refine ⟨_, foreachVar_eq h _ new [rhs] 0 h.pos _, ?_⟩
  simp only [List.drop_zero, List.map_cons, List.map_nil, assignRS_eq]
  refine assigned_construct (assigned_fold new (fun x m => A.value op lhs (m (rhs, x))) ?_ _
    h.nodup _) ?_
  · intro x y m v hxy
    simp only [upd_ne hxy]
  · intro x
    simp only [construct_of_ne A t hr]

/-- `lhs op= rhs` of two states, which can be the same object, changes the members of `lhs` only, each as
the operator says for the values before, and its value is `lhs` itself. -/
theorem C108_compound_state (A : Arith K) {t : StateType} (ht : IsState t) (op : Op) (lhs rhs : ℕ)
    (m : Mem K) :
    ∃ m', compSS A t op lhs rhs m = some (m', lhs) ∧
      Assigned t.members lhs (fun x => A.value op (m (lhs, x)) (m (rhs, x))) m m' := by
  have h := ht.declared
  have e := foreachVar_eq h (updateSS A op) lhs [rhs] 0 h.pos m
  refine ⟨_, by rw [compSS, show [(⟨t, rhs⟩ : Ref)] = [rhs].map fun p => ⟨t, p⟩ from rfl, e]; rfl, ?_⟩
  simp only [List.drop_zero, List.map_cons, List.map_nil, updateSS_eq]
  refine assigned_fold lhs (fun x m => A.value op (m (lhs, x)) (m (rhs, x))) ?_ _ h.nodup _
  intro x y m v hxy
  simp only [upd_ne hxy]

/-- `lhs op= rhs` of a state and a number. -/
theorem C108_compound_number (A : Arith K) {t : StateType} (ht : IsState t) (op : Op) (lhs : ℕ) (rhs : K)
    (m : Mem K) :
    ∃ m', compSR A t op lhs rhs m = some (m', lhs) ∧
      Assigned t.members lhs (fun x => A.value op (m (lhs, x)) rhs) m m' := by
  have h := ht.declared
  have e := foreachVar_eq h (updateSR A rhs op) lhs [] 0 h.pos m
  refine ⟨_, by rw [compSR, show ([] : List Ref) = ([] : List ℕ).map fun p => ⟨t, p⟩ from rfl, e]; rfl, ?_⟩
  simp only [List.drop_zero, List.map_cons, List.map_nil, updateSR_eq]
  refine assigned_fold lhs (fun x m => A.value op (m (lhs, x)) rhs) ?_ _ h.nodup _
  intro x y m v hxy
  simp only [upd_ne hxy]

/-- A statement like `u /= u.rho`: all members are combined with what the member was before, though it
changes itself on the way. -/
theorem C108_compound_own_member (A : Arith K) {t : StateType} (ht : IsState t) (op : Op) (u : ℕ)
    (y : String) (m : Mem K) :
    ∃ m', compSR A t op u (m (u, y)) m = some (m', u) ∧
      ∀ x ∈ t.members, m' (u, x) = A.value op (m (u, x)) (m (u, y)) :=
  let ⟨m', h, ha⟩ := C108_compound_number A ht op u (m (u, y)) m
  ⟨m', h, ha.1⟩

/-- Both ways to write an operation give the same: `w = u op v` for a copy of `u` is `u op= v`. -/
theorem C108_compound_agrees (A : Arith K) {t : StateType} (ht : IsState t) (op : Op) {new u v : ℕ}
    (hu : u ≠ new) (hv : v ≠ new) (m : Mem K) :
    ∃ m₁ m₂, opSS A t op new u v m = some m₁ ∧ compSS A t op u v m = some (m₂, u) ∧
      ∀ x ∈ t.members, m₁ (new, x) = m₂ (u, x) := by
  obtain ⟨m₁, h₁, a₁⟩ := C108_state_state A ht op hu hv m
  obtain ⟨m₂, h₂, a₂⟩ := C108_compound_state A ht op u v m
  exact ⟨m₁, m₂, h₁, h₂, fun x hx => (a₁.1 x hx).trans (a₂.1 x hx).symm⟩

end Verif.States
