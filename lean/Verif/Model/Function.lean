import Verif.Model.Storage

/-!
# Functions that return expressions

Measurement functions of factors (`estimation/Factor.hpp:44-60`, called in
`estimation/impl/Factor_impl.hpp:33-60`) and any other user function `auto f(const A &a, ...)` that names
subexpressions in local variables and returns an expression, a compound
(`core/storage/NaryStorage.hpp:156-159`) or a tuple (`estimation/Factor.hpp:131-139`).

Simplifications: arguments of `makeCompound` and `residualVector` are evaluated from left to right and
each member is initialised before the next argument is evaluated (they can be told apart only if two
arguments move the same object); the members of the returned object are named separately; a prvalue
returned is constructed in place or moved (`Res.init`).
-/

namespace WG

variable {L : Lib}

/-- How an object is initialised from a source expression. -/
inductive Init
  /-- `auto r = s;` or `return s;`; also `auto &&r = s;` for a prvalue, whose lifetime is extended -/
  | whole
  /-- a member of `makeCompound<E>(...)`: type `arg_t<Args>`, stored as `storage_t`
  (NaryStorage.hpp:9-12, 48-49, 156-159) -/
  | member
  /-- a member of `residualVector(...)`: `std::forward_as_tuple` (Factor.hpp:136-139) -/
  | forwarded
  deriving DecidableEq

variable [DecidableEq L.Ty]

/-- Is the argument passed to a forwarding reference an rvalue (of const type or not)? -/
def Res.isRvalue {τ : L.Ty} : Res L τ → Bool
  | .object _ rv => rv
  | .prvalue _ _ => true

/-- Initialise the object `r` from `s`, at the end of which the temporaries die. -/
def initResult (k : Init) (r : ℕ) {τ : L.Ty} (s : Src L τ) (st : Machine L) : Option (Machine L) :=
  match k with
  | .whole => (Stmt.auto r s).run st
  | .member =>
    if r ∈ st.declared then none else
    (s.eval st).bind fun q =>
      let b := q.1.bind q.2
      (WG.member b.1 q.1.isRvalue τ b.2.2).map fun x =>
        { (x.2.set (.var r) x.1).endFull with declared := r :: st.declared }
  | .forwarded =>
    if r ∈ st.declared then none else
    (s.eval st).bind fun q =>
      let b := q.1.bind q.2
      some { (b.2.2.set (.var r) (XObj.ref (L := L) b.1 τ)).endFull with declared := r :: st.declared }

/-- A named object and its initialiser. -/
structure InitStep (L : Lib) where
  name : ℕ
  kind : Init
  {ty : L.Ty}
  src : Src L ty

/-- Run initialisations in order. -/
def runInits : List (InitStep L) → Machine L → Option (Machine L)
  | [], st => some st
  | p :: l, st => (initResult p.kind p.name p.src st).bind (runInits l)

/-- A function: its local variables, and what it returns (one object, or the members of a compound or
tuple). -/
structure Function (L : Lib) where
  locals : List (InitStep L)
  results : List (InitStep L)

/-- Call: the parameters are the caller's objects, bound by reference; the locals die at the end. -/
def Function.call (f : Function L) (st : Machine L) : Option (Machine L) :=
  (runInits f.locals st).bind fun st1 => (runInits f.results st1).bind fun st2 =>
    runStmts ((f.locals.reverse).map fun p => .destroy p.name) st2

end WG
