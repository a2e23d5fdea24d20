import Verif.Model.Storage

/-!
# Specification: what a stored expression may refer to, and what it denotes later
-/

namespace WG.Spec

variable {L : Lib}

/-- Is the object a `Proxy` or `RefProxy`? -/
def IsHandle : {τ : L.Ty} → XObj L τ → Prop
  | _, .handle _ _ _ => True
  | _, _ => False

/-- The objects that must outlive `o` because `o` does not own them: targets of reference members and
of `RefProxy` handles. -/
def borrowed : {τ : L.Ty} → XObj L τ → List Id
  | _, .leaf _ _ => []
  | _, .ref i _ => [i]
  | _, .un _ x => borrowed x
  | _, .bin _ x y => borrowed x ++ borrowed y
  | _, .handle .plain n _ => n.toList
  | _, .handle .owning _ _ => []
  | _, .dyn x => borrowed x

/-- Does the object contain an owning handle (a `Proxy`)?  Only such an object is changed by moving
from it. -/
def Owns : {τ : L.Ty} → XObj L τ → Prop
  | _, .leaf _ _ => False
  | _, .ref _ _ => False
  | _, .un _ x => Owns x
  | _, .bin _ x y => Owns x ∨ Owns y
  | _, .handle k _ _ => k = .owning
  | _, .dyn x => Owns x

/-- The variables mentioned in a source expression. -/
def vars : {τ : L.Ty} → Src L τ → List ℕ
  | _, .named a _ => [a]
  | _, .moved a _ => [a]
  | _, .movedConst a _ => [a]
  | _, .temp _ _ => []
  | _, .constResult s => vars s
  | _, .un _ s => vars s
  | _, .bin _ s t => vars s ++ vars t
  | _, .makeDynamic s => vars s
  | _, .makeRef s => vars s
  | _, .makeProxy s => vars s

/-- The variables that are moved from. -/
def movedVars : {τ : L.Ty} → Src L τ → List ℕ
  | _, .named _ _ => []
  | _, .moved a _ => [a]
  | _, .movedConst _ _ => []
  | _, .temp _ _ => []
  | _, .constResult s => movedVars s
  | _, .un _ s => movedVars s
  | _, .bin _ s t => movedVars s ++ movedVars t
  | _, .makeDynamic s => movedVars s
  | _, .makeRef s => movedVars s
  | _, .makeProxy s => movedVars s

/-- The variables that appear as lvalues (or through `ref`). -/
def lvalues : {τ : L.Ty} → Src L τ → List ℕ
  | _, .named a _ => [a]
  | _, .moved _ _ => []
  | _, .movedConst a _ => [a]
  | _, .temp _ _ => []
  | _, .constResult s => lvalues s
  | _, .un _ s => lvalues s
  | _, .bin _ s t => lvalues s ++ lvalues t
  | _, .makeDynamic s => lvalues s
  | _, .makeRef s => vars s
  | _, .makeProxy s => lvalues s

/-- A variable, possibly under `std::move`. -/
def IsVariable : {τ : L.Ty} → Src L τ → Prop
  | _, .named _ _ => True
  | _, .moved _ _ => True
  | _, .movedConst _ _ => True
  | _, _ => False

/-- No temporary of const type is used as an operand, and `ref` is applied to variables only. -/
def Tidy : {τ : L.Ty} → Src L τ → Prop
  | _, .named _ _ => True
  | _, .moved _ _ => True
  | _, .movedConst _ _ => True
  | _, .temp _ _ => True
  | _, .constResult _ => False
  | _, .un _ s => Tidy s
  | _, .bin _ s t => Tidy s ∧ Tidy t
  | _, .makeDynamic s => Tidy s
  | _, .makeRef s => IsVariable s
  | _, .makeProxy s => Tidy s

/-- The variable `a` holds an object containing a `Proxy`. -/
def OwnsAt (m : Cells L) (a : ℕ) : Prop := ∃ τ o, m (.var a) = some ⟨τ, o⟩ ∧ Owns (L := L) (τ := τ) o

/-- No variable holding a `Proxy` is moved from in one operand and mentioned in the other. -/
def MoveOnce (m : Cells L) : {τ : L.Ty} → Src L τ → Prop
  | _, .named _ _ => True
  | _, .moved _ _ => True
  | _, .movedConst _ _ => True
  | _, .temp _ _ => True
  | _, .constResult s => MoveOnce m s
  | _, .un _ s => MoveOnce m s
  | _, .bin _ s t => MoveOnce m s ∧ MoveOnce m t ∧ (∀ a ∈ movedVars s, a ∈ vars t → ¬ OwnsAt m a) ∧
      ∀ a ∈ movedVars t, a ∈ vars s → ¬ OwnsAt m a
  | _, .makeDynamic s => MoveOnce m s
  | _, .makeRef s => MoveOnce m s
  | _, .makeProxy s => MoveOnce m s

/-- No handles are made. -/
def NoHandles : {τ : L.Ty} → Src L τ → Prop
  | _, .named _ _ => True
  | _, .moved _ _ => True
  | _, .movedConst _ _ => True
  | _, .temp _ _ => True
  | _, .constResult s => NoHandles s
  | _, .un _ s => NoHandles s
  | _, .bin _ s t => NoHandles s ∧ NoHandles t
  | _, .makeDynamic s => NoHandles s
  | _, .makeRef _ => False
  | _, .makeProxy _ => False

/-- The value of the variable `a` in the memory `m`. -/
def ValueOf (m : Cells L) (a : ℕ) (τ : L.Ty) (v : Option (L.Val τ)) : Prop :=
  ∃ o, m (.var a) = some ⟨τ, o⟩ ∧ Reads m o v

/-- What a source expression built in memory `m₀` denotes when evaluated later in memory `m`.
A named object is looked up in `m` at that time, except that a handle keeps pointing where it pointed
in `m₀`; a moved object has the contents it had in `m₀`; a temporary is a constant. -/
def Denotes (m₀ m : Cells L) : {τ : L.Ty} → Src L τ → Option (L.Val τ) → Prop
  | τ, .named a _, v => ∃ o, m₀ (.var a) = some ⟨τ, o⟩ ∧
      ((IsHandle o ∧ Reads m o v) ∨ (¬ IsHandle o ∧ ValueOf m a τ v))
  | τ, .moved a _, v => ∃ o, m₀ (.var a) = some ⟨τ, o⟩ ∧ Reads m o v
  | τ, .movedConst a _, v => ∃ o, m₀ (.var a) = some ⟨τ, o⟩ ∧
      ((IsHandle o ∧ Reads m o v) ∨ (¬ IsHandle o ∧ ValueOf m a τ v))
  | _, .temp _ x, v => v = some x
  | _, .constResult s, v => Denotes m₀ m s v
  | _, .un op s, v => ∃ x, Denotes m₀ m s x ∧ v = x.bind (L.evalU op)
  | _, .bin op s t, v => ∃ x y, Denotes m₀ m s x ∧ Denotes m₀ m t y ∧
      v = x.bind fun x => y.bind fun y => L.evalB op x y
  | _, .makeDynamic s, v => Denotes m₀ m s v
  | τ, .makeRef s, v => ∃ a ∈ vars s, ∃ x, m (.var a) = some ⟨τ, .dyn x⟩ ∧ Reads m x v
  | _, .makeProxy s, v => Denotes m₀ m s v

/-- A later memory in which the heap nodes that existed are unchanged (they are owned by handles and
no operation modifies them). -/
def KeepsHeap (st : Machine L) (m : Cells L) : Prop :=
  ∀ i < st.nHeap, m (.heap i) = st.cells (.heap i)

/-- Objects the result of `s` may refer to: variables that were lvalues in `s`, and whatever the
handles and moved objects already referred to. -/
def MayBorrow (m₀ : Cells L) {τ : L.Ty} (s : Src L τ) (i : Id) : Prop :=
  (∃ a ∈ lvalues s, i = .var a) ∨
  ∃ a ∈ vars s, ∃ (σ : L.Ty) (o : XObj L σ), m₀ (.var a) = some ⟨σ, o⟩ ∧
    (a ∈ movedVars s ∨ IsHandle o) ∧ i ∈ borrowed o

end WG.Spec

namespace WG
open Spec

variable {L : Lib}

/-- Statements whose expressions are careful. -/
def Stmt.Tidy : Stmt L → Prop
  | .auto _ s => Spec.Tidy s
  | .rebind _ s => Spec.Tidy s
  | .write _ _ _ => True
  | .destroy _ => True

/-- The variables a statement may change, besides creating new ones. -/
def Stmt.touches : Stmt L → ℕ → Prop
  | .auto _ s, b => b ∈ movedVars s
  | .write a _ _, b => b = a
  | .rebind a s, b => b = a ∨ b ∈ movedVars s
  | .destroy a, b => b = a

/-- Statements without const temporaries, without moves out of `Proxy` holders, and without ends of
scopes. -/
def Stmt.Tame (st : Machine L) : Stmt L → Prop
  | .auto _ s => Spec.Tidy s ∧ ∀ a ∈ movedVars s, ¬ OwnsAt st.cells a
  | .rebind _ s => Spec.Tidy s ∧ ∀ a ∈ movedVars s, ¬ OwnsAt st.cells a
  | .write _ _ _ => True
  | .destroy _ => False

variable [DecidableEq L.Ty]

/-- Programs all of whose statements are tame when they are executed. -/
def TameRun : List (Stmt L) → Machine L → Machine L → Prop
  | [], st, st' => st' = st
  | c :: cs, st, st' => c.Tame st ∧ ∃ st1, c.run st = some st1 ∧ TameRun cs st1 st'

end WG
