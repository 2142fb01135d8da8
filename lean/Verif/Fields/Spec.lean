import Verif.Fields.Model

/-!
# Specification: named independent arrays

Stated without the model: a set of names, an array for each name.
-/

namespace Verif.Fields

variable {N C α : Type} [DecidableEq N] [DecidableEq C] [Zero α]

/-- Named arrays. -/
structure Store (N C α : Type) where
  names : Finset N
  data : N → C → α

/-- Operations on named arrays. -/
inductive Op (N C α : Type)
  | create (names : List N)
  | rename (dest src : N)
  | delete (n : N)
  | write (n : N) (c : C) (v : α)
  | remap (f : (C → α) → C → α)

/-- When an operation is allowed: at most 64 names (32 to remap), new names are new, used names
exist. -/
def Op.Legal (st : Store N C α) : Op N C α → Prop
  | .create names => names.Nodup ∧ (∀ n ∈ names, n ∉ st.names) ∧ st.names.card + names.length ≤ 64
  | .rename _ src => src ∈ st.names
  | .delete _ => True
  | .write n _ _ => n ∈ st.names
  | .remap _ => 1 ≤ st.names.card ∧ st.names.card ≤ 32

/-- Meaning of an operation. -/
def Op.meaning (st : Store N C α) : Op N C α → Store N C α
  | .create names => ⟨st.names ∪ names.toFinset, fun n => if n ∈ names then fun _ => 0 else st.data n⟩
  | .rename dest src => ⟨if dest = src then st.names else (insert dest st.names).erase src,
      Function.update st.data dest (st.data src)⟩
  | .delete n => ⟨st.names.erase n, st.data⟩
  | .write n c v => ⟨st.names, Function.update st.data n (Function.update (st.data n) c v)⟩
  | .remap f => ⟨st.names, fun n => f (st.data n)⟩

/-- A sequence of operations is legal. -/
def LegalRun : Store N C α → List (Op N C α) → Prop
  | _, [] => True
  | st, op :: ops => op.Legal st ∧ LegalRun (op.meaning st) ops

/-- Meaning of a sequence. -/
def meaningRun (st : Store N C α) (ops : List (Op N C α)) : Store N C α := ops.foldl Op.meaning st

end Verif.Fields
