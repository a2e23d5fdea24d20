import Verif.Model.FactorVariable

/-!
# Factors and the variables they share (estimation/FactorBase.hpp, estimation/Factor.hpp)

A factor holds `std::shared_ptr`s to its variables (Factor.hpp:120) in an array, over which the abstract
base iterates (FactorBase.hpp:19-30, Factor.hpp:104-113).  A program makes variables, copies, moves and
resets its own pointers, makes, copies, moves and destroys factors, and a solver writes the arrays of the
variables it finds by iterating over a factor.  Pointers are counted as `std::shared_ptr` does.  What is
not modelled: the measurement (C46), assignment of factors, threads, weak pointers; the arguments of
`makeFactor` are taken from left to right, which makes a difference only if a pointer is moved from and
passed again in the same call.
-/

namespace WG

/-- A `std::shared_ptr<FactorVariable<Leaf>>`; `none` is null. -/
abbrev VarPtr := Option ℕ

variable {ε : ℝ}

/-- The state of a program with factors.  Variables are numbered as they are made. -/
structure Graph (ε : ℝ) where
  /-- The pointers of the program itself. -/
  handles : List VarPtr
  /-- The factors; `none` after its destruction. -/
  factors : List (Option (List VarPtr))
  /-- Number of variables made. -/
  made : ℕ
  /-- The counter of the control block of a variable. -/
  count : ℕ → ℕ
  /-- How often the destructor of a variable has run. -/
  destroyed : ℕ → ℕ
  /-- The leaf class of a variable. -/
  cls : ℕ → Ty
  /-- The leaves in the variables. -/
  store : Store (geoLib ε)

/-- Before the program starts. -/
def Graph.start (s : Store (geoLib ε)) : Graph ε := ⟨[], [], 0, fun _ => 0, fun _ => 0, fun _ => .point, s⟩

/-- Copying a pointer. -/
def Graph.acquire (g : Graph ε) : VarPtr → Graph ε
  | none => g
  | some p => { g with count := Function.update g.count p (g.count p + 1) }

/-- Destroying or overwriting a pointer: the last one destroys the variable. -/
def Graph.release (g : Graph ε) : VarPtr → Graph ε
  | none => g
  | some p =>
    { g with
      count := Function.update g.count p (g.count p - 1)
      destroyed := if g.count p = 1 then Function.update g.destroyed p (g.destroyed p + 1) else g.destroyed }

/-- What a program does.  Positions of pointers and factors are in the order of their creation. -/
inductive GOp
  /-- `auto v = std::make_shared<FactorVariable<Leaf>>(); v->value() = x;` -/
  | makeVar (τ : Ty) (x : τ.Val)
  /-- `auto w = v;` -/
  | copy (i : ℕ)
  /-- `auto w = std::move(v);` -/
  | move (i : ℕ)
  /-- `v.reset();`, or the end of the scope of `v` -/
  | reset (i : ℕ)
  /-- `auto f = makeFactor<Functor>(measurement, v, std::move(w), ...);`, Factor.hpp:69-72 and 123-129 -/
  | makeFactor (args : List (ℕ × Bool))
  /-- `auto f2 = f;` -/
  | copyFactor (f : ℕ)
  /-- `auto f2 = std::move(f);`: the array is moved element by element. -/
  | moveFactor (f : ℕ)
  /-- The end of the scope of `f`. -/
  | destroyFactor (f : ℕ)
  /-- `(*(f.begin() + i))->data()[j] = x;` for a `const FactorBase & f` -/
  | write (f i j : ℕ) (x : ℝ)

/-- The parameters of `makeFactor` (by value), Factor.hpp:123-129; in the call the pointers are moved on. -/
def Graph.params : Graph ε → List (ℕ × Bool) → Option (Graph ε × List VarPtr)
  | g, [] => some (g, [])
  | g, (i, moved) :: l => do
    let q ← g.handles[i]?
    let g' := if moved then { g with handles := g.handles.set i none } else g.acquire q
    let (g'', qs) ← g'.params l
    some (g'', q :: qs)

/-- `f.begin()` to `f.end()`, Factor.hpp:108-113.  `none`: no such factor, or it is destroyed. -/
def Graph.iterate (g : Graph ε) (f : ℕ) : Option (List VarPtr) := (g.factors[f]?).join

/-- `f.size()`, Factor.hpp:104-106. -/
def Graph.size (g : Graph ε) (f : ℕ) : Option ℕ := (g.iterate f).map List.length

/-- One step.  `none`: there is no such object (any more), the pointer is null, the element is outside the
array, or the class of the variable has no array. -/
noncomputable def Graph.step (g : Graph ε) : GOp → Option (Graph ε)
  | .makeVar τ x => some
    { g with
      handles := g.handles ++ [some g.made]
      made := g.made + 1
      count := Function.update g.count g.made 1
      cls := Function.update g.cls g.made τ
      store := g.store.set g.made τ x }
  | .copy i => do
    let q ← g.handles[i]?
    some { g.acquire q with handles := g.handles ++ [q] }
  | .move i => do
    let q ← g.handles[i]?
    some { g with handles := g.handles.set i none ++ [q] }
  | .reset i => do
    let q ← g.handles[i]?
    some (Graph.release { g with handles := g.handles.set i none } q)
  | .makeFactor args => do
    let (g', qs) ← g.params args
    some { g' with factors := g'.factors ++ [some qs] }
  | .copyFactor f => do
    let qs ← g.iterate f
    some { qs.foldl Graph.acquire g with factors := g.factors ++ [some qs] }
  | .moveFactor f => do
    let qs ← g.iterate f
    some { g with factors := g.factors.set f (some (qs.map fun _ => none)) ++ [some qs] }
  | .destroyFactor f => do
    let qs ← g.iterate f
    some (qs.foldl Graph.release { g with factors := g.factors.set f none })
  | .write f i j x => do
    let qs ← g.iterate f
    let q ← qs[i]?
    let p ← q
    let s ← dataWrite g.store p (g.cls p) j x
    some { g with store := s }

/-- A program. -/
noncomputable def Graph.run (g : Graph ε) : List GOp → Option (Graph ε)
  | [] => some g
  | o :: l => (g.step o).bind fun g' => g'.run l

end WG
