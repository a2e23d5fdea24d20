import Verif.Model.Function
import Verif.Spec.Storage

/-!
# Specification: functions that move what they name

`inPlace` is the expression with the definitions of local variables written in place.
-/

namespace WG.Spec

variable {L : Lib} [DecidableEq L.Ty]

/-- No variable is moved from in one operand and mentioned in the other. -/
def Linear : {τ : L.Ty} → Src L τ → Prop
  | _, .named _ _ => True
  | _, .moved _ _ => True
  | _, .movedConst _ _ => True
  | _, .temp _ _ => True
  | _, .constResult s => Linear s
  | _, .un _ s => Linear s
  | _, .bin _ s t => Linear s ∧ Linear t ∧ (∀ a ∈ movedVars s, a ∉ vars t) ∧ ∀ a ∈ movedVars t, a ∉ vars s
  | _, .makeDynamic s => Linear s
  | _, .makeRef s => Linear s
  | _, .makeProxy s => Linear s

/-- Definitions of local variables. -/
abbrev Defs (L : Lib) := ℕ → Option ((τ : L.Ty) × Src L τ)

/-- Write definitions in place of the moved variables. -/
def inPlace (d : Defs L) : {τ : L.Ty} → Src L τ → Src L τ
  | τ, .moved a _ => match d a with
    | some ⟨σ, t⟩ => if h : σ = τ then h ▸ t else .moved a τ
    | none => .moved a τ
  | _, .named a τ => .named a τ
  | _, .movedConst a τ => .movedConst a τ
  | _, .temp τ v => .temp τ v
  | _, .constResult s => .constResult (inPlace d s)
  | _, .un op s => .un op (inPlace d s)
  | _, .bin op s t => .bin op (inPlace d s) (inPlace d t)
  | _, .makeDynamic s => .makeDynamic (inPlace d s)
  | _, .makeRef s => .makeRef s
  | _, .makeProxy s => .makeProxy (inPlace d s)

/-- The definitions after a list of local variables, each in terms of what was there before. -/
def defs : List (InitStep L) → Defs L → Defs L
  | [], d => d
  | p :: l, d => defs l fun a => if a = p.name then some ⟨p.ty, inPlace d p.src⟩ else d a

/-- No variable is mentioned after it has been moved from. -/
def NoUseAfterMove : List (InitStep L) → Prop
  | [] => True
  | p :: l => (∀ a ∈ movedVars p.src, ∀ q ∈ l, a ∉ vars q.src) ∧ NoUseAfterMove l

/-- A function that moves the local variables it mentions: no temporaries of const type are used as
operands, nothing is used after being moved from, and no local variable is used without `std::move`. -/
structure Disciplined (f : Function L) : Prop where
  tidy : ∀ p ∈ f.locals ++ f.results, Tidy p.src ∧ Linear p.src
  /-- locals and a returned expression are new objects, not copies of a variable -/
  fresh : ∀ p ∈ f.locals ++ f.results, p.kind = .whole → ¬ IsVariable p.src
  locals : ∀ p ∈ f.locals, p.kind = .whole
  results : ∀ p ∈ f.results, p.kind ≠ .forwarded
  moves : NoUseAfterMove (f.locals ++ f.results)
  byMove : ∀ p ∈ f.locals ++ f.results, ∀ q ∈ f.locals, q.name ∉ lvalues p.src
  /-- the results are not mentioned in the function, and are not its locals -/
  new : ∀ r ∈ f.results, ∀ p ∈ f.locals ++ f.results, r.name ∉ vars p.src

end WG.Spec

namespace WG.Spec

variable {L : Lib}

/-- The value of a source expression over leaves, given their values. -/
def valueWith (ρ : ℕ → (τ : L.Ty) → L.Val τ) : {τ : L.Ty} → Src L τ → Option (L.Val τ)
  | τ, .named a _ => some (ρ a τ)
  | τ, .moved a _ => some (ρ a τ)
  | τ, .movedConst a _ => some (ρ a τ)
  | _, .temp _ v => some v
  | _, .constResult s => valueWith ρ s
  | _, .un op s => (valueWith ρ s).bind (L.evalU op)
  | _, .bin op s t => (valueWith ρ s).bind fun x => (valueWith ρ t).bind fun y => L.evalB op x y
  | _, .makeDynamic s => valueWith ρ s
  | _, .makeRef s => valueWith ρ s
  | _, .makeProxy s => valueWith ρ s

/-- Every variable mentioned is a leaf of the class it is mentioned at, with value `ρ`. -/
def LeavesAt (m : Cells L) (ρ : ℕ → (τ : L.Ty) → L.Val τ) : {τ : L.Ty} → Src L τ → Prop
  | τ, .named a _ => m (.var a) = some ⟨τ, .leaf τ (ρ a τ)⟩
  | τ, .moved a _ => m (.var a) = some ⟨τ, .leaf τ (ρ a τ)⟩
  | τ, .movedConst a _ => m (.var a) = some ⟨τ, .leaf τ (ρ a τ)⟩
  | _, .temp _ _ => True
  | _, .constResult s => LeavesAt m ρ s
  | _, .un _ s => LeavesAt m ρ s
  | _, .bin _ s t => LeavesAt m ρ s ∧ LeavesAt m ρ t
  | _, .makeDynamic s => LeavesAt m ρ s
  | _, .makeRef s => LeavesAt m ρ s
  | _, .makeProxy s => LeavesAt m ρ s

end WG.Spec
