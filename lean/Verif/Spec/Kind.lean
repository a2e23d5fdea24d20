import Verif.Spec.Expression

/-!
# Specification: kinds of objects
-/

namespace WG
open Spec

/-- The kind of an object. -/
def Kind.of : Obj → Kind
  | .vec k _ => .vec k
  | .point _ => .point
  | .rot _ => .rot
  | .motion _ => .motion

end WG
