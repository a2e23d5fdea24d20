import Verif.Model.Meta

/-!
# What the metafunctions should give
-/

namespace WG.Spec
open WG.Meta

mutual
/-- A type with every `type_list` in it expanded, however deep. -/
def flat : Tp → List Tp
  | .atom n => [.atom n]
  | .inst f ts => if f = typeList then flats ts else [.inst f ts]
/-- The same for a pack. -/
def flats : List Tp → List Tp
  | [] => []
  | t :: ts => flat t ++ flats ts
end

/-- The outcome of a short-circuiting "or" (`stop` true) or "and" (`stop` false) over `l`: the first
member whose value is `stop` decides and what follows it is not looked at; an error before that is an
error; if there is no such member the last one decides. -/
inductive Short {α : Type} (stop : Bool) (no : α) (env : Tp → Option (Trait α)) :
    List Tp → Option (Trait α) → Prop
  | found {pre post : List Tp} {b : Tp} {t : Trait α}
      (h : ∀ x ∈ pre, ∃ u, env x = some u ∧ u.value = !stop) (hb : env b = some t)
      (ht : t.value = stop) : Short stop no env (pre ++ b :: post) (some t)
  | error {pre post : List Tp} {b : Tp}
      (h : ∀ x ∈ pre, ∃ u, env x = some u ∧ u.value = !stop) (hb : env b = none) :
      Short stop no env (pre ++ b :: post) none
  | last {pre : List Tp} {b : Tp} {t : Trait α}
      (h : ∀ x ∈ pre, ∃ u, env x = some u ∧ u.value = !stop) (hb : env b = some t)
      (ht : t.value = !stop) : Short stop no env (pre ++ [b]) (some t)
  | empty : Short stop no env [] (some ⟨!stop, no⟩)

/-- A type is an instance of a template that takes types. -/
def IsInstance (t : Tp) : Prop := ∃ f as, t = .inst f as

end WG.Spec
