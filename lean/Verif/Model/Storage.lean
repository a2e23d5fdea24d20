import Verif.Model.Expr

/-!
# What expression objects store, and value categories

`core/storage/RefSelector.hpp:28-132` (`storage_selector`, `arg_selector`), the rvalue overloads of
`util/macros.hpp:40-123`, `core/storage/UnaryStorage.hpp`, `BinaryStorage.hpp`, `LeafStorage.hpp`,
`dynamic/Dynamic.hpp:127-142`, `dynamic/Proxy.hpp:29-71, 226-231`, `dynamic/RefProxy.hpp:41-103`.

A program is a list of statements; each statement contains a source expression with value categories.
Simplifications: an object is identified by an abstract identity which is never reused (as in the
C++ object model, a pointer to a dead object stays invalid); heap nodes are never freed; conversions
inserted at evaluation, frames, and n-ary compounds are left out; moving a leaf copies its value (as
Eigen's fixed-size types do).
-/

namespace WG

/-- Identity of an object in memory: a variable, a temporary, or a heap node owned by `Proxy`
handles. -/
inductive Id
  | var (a : ℕ) | tmp (i : ℕ) | heap (i : ℕ)
  deriving DecidableEq

/-- The two handle classes: `Proxy` (owning, `shared_ptr`, Proxy.hpp:67) and `RefProxy` (a plain
pointer, RefProxy.hpp:70). -/
inductive HandleKind | owning | plain
  deriving DecidableEq

/-- Contents of an expression object.  `ref` is a reference member (`T&` storage) and occurs only
inside other objects; `handle k none` is a moved-from `Proxy`; `dyn` is a `Dynamic<...>` object
(Dynamic.hpp:19-33). -/
inductive XObj (L : Lib) : L.Ty → Type
  | leaf (τ : L.Ty) (v : L.Val τ) : XObj L τ
  | ref (i : Id) (τ : L.Ty) : XObj L τ
  | un {α β : L.Ty} (op : L.Un α β) (x : XObj L α) : XObj L β
  | bin {α β γ : L.Ty} (op : L.Bin α β γ) (x : XObj L α) (y : XObj L β) : XObj L γ
  | handle (k : HandleKind) (n : Option Id) (τ : L.Ty) : XObj L τ
  | dyn {τ : L.Ty} (x : XObj L τ) : XObj L τ

variable {L : Lib}

/-- Memory: the objects alive and their contents. -/
abbrev Cells (L : Lib) := Id → Option ((τ : L.Ty) × XObj L τ)

/-- Evaluation of an object (the forward sweep, Evaluator.hpp:28-105; through handles,
Proxy.hpp:93-106 and Dynamic.hpp:59-62).  No rule applies to a dangling reference, a dangling handle
or a moved-from handle: undefined behaviour.  An operation without finite result gives `none`. -/
inductive Reads (m : Cells L) : {τ : L.Ty} → XObj L τ → Option (L.Val τ) → Prop
  | leaf (τ v) : Reads m (.leaf τ v) (some v)
  | ref {i τ o v} : m i = some ⟨τ, o⟩ → Reads m o v → Reads m (.ref i τ) v
  | un {α β} {op : L.Un α β} {x v} : Reads m x v → Reads m (.un op x) (v.bind (L.evalU op))
  | bin {α β γ} {op : L.Bin α β γ} {x y v w} : Reads m x v → Reads m y w →
      Reads m (.bin op x y) (v.bind fun v => w.bind fun w => L.evalB op v w)
  | handle {k n τ x v} : m n = some ⟨τ, .dyn x⟩ → Reads m x v → Reads m (.handle k (some n) τ) v
  | dyn {τ} {x : XObj L τ} {v} : Reads m x v → Reads m (.dyn x) v

/-- The part of the static type of an argument that the selectors look at. -/
inductive ArgKind | leaf | expr | proxy
  deriving DecidableEq

/-- The static type of an object (`is_leaf_expression`, `is_proxy`). -/
def XObj.argKind : {τ : L.Ty} → XObj L τ → ArgKind
  | _, .leaf _ _ => .leaf
  | _, .handle _ _ _ => .proxy
  | _, _ => .expr

/-- Template argument chosen for an operand: `T&`, `T&&` or `T`. -/
inductive ArgType | lref | rref | value
  deriving DecidableEq

/-- `arg_selector` (RefSelector.hpp:111-129), specialised for proxies (Proxy.hpp:228-233,
RefProxy.hpp:99-103).  `lvalue`: the argument type is `T&` or `const T&`. -/
def argSelector (lvalue : Bool) : ArgKind → ArgType
  | .proxy => .value
  | .leaf => if lvalue then .lref else .rref
  | .expr => if lvalue then .lref else .value

/-- `storage_selector` (RefSelector.hpp:28-44): stored by value? -/
def storedByValue : ArgType → Bool
  | .lref => false
  | .rref => true
  | .value => true

/-- What remains of an object after its contents have been moved out: owning handles are empty
(`shared_ptr`), everything else is copied. -/
def XObj.movedFrom : {τ : L.Ty} → XObj L τ → XObj L τ
  | _, .leaf τ v => .leaf τ v
  | _, .ref i τ => .ref i τ
  | _, .un op x => .un op x.movedFrom
  | _, .bin op x y => .bin op x.movedFrom y.movedFrom
  | _, .handle .owning _ τ => .handle .owning none τ
  | _, .handle .plain n τ => .handle .plain n τ
  | _, .dyn x => .dyn x.movedFrom

/-- State of the machine. -/
structure Machine (L : Lib) where
  cells : Cells L
  nTmp : ℕ
  nHeap : ℕ
  /-- variables ever declared -/
  declared : List ℕ

/-- Replace the contents of an object. -/
def Machine.set (st : Machine L) (i : Id) {τ : L.Ty} (o : XObj L τ) : Machine L :=
  { st with cells := fun j => if j = i then some ⟨τ, o⟩ else st.cells j }

variable [DecidableEq L.Ty]

/-- The object of class `τ` at `i`. -/
def Cells.get (m : Cells L) (i : Id) (τ : L.Ty) : Option (XObj L τ) :=
  (m i).bind fun p => if h : p.1 = τ then some (h ▸ p.2) else none

/-- Source expressions, with value categories. -/
inductive Src (L : Lib) : L.Ty → Type
  /-- a variable (lvalue, const or not) -/
  | named (a : ℕ) (τ : L.Ty) : Src L τ
  /-- `std::move(x)` of a non-const variable -/
  | moved (a : ℕ) (τ : L.Ty) : Src L τ
  /-- `std::move(x)` of a const variable -/
  | movedConst (a : ℕ) (τ : L.Ty) : Src L τ
  /-- a temporary leaf, or a plain scalar given as an rvalue -/
  | temp (τ : L.Ty) (v : L.Val τ) : Src L τ
  /-- the same value as a prvalue of const-qualified type: the result of a function declared to
  return `const T` -/
  | constResult {τ : L.Ty} (s : Src L τ) : Src L τ
  /-- a unary library function or operator -/
  | un {α β : L.Ty} (op : L.Un α β) (s : Src L α) : Src L β
  /-- a binary library function or operator -/
  | bin {α β γ : L.Ty} (op : L.Bin α β γ) (s : Src L α) (t : Src L β) : Src L γ
  /-- `makeDynamic(s)` -/
  | makeDynamic {τ : L.Ty} (s : Src L τ) : Src L τ
  /-- `ref(s)` or implicit construction of a `RefProxy` -/
  | makeRef {τ : L.Ty} (s : Src L τ) : Src L τ
  /-- `makeProxy(s)` or implicit construction of a `Proxy` -/
  | makeProxy {τ : L.Ty} (s : Src L τ) : Src L τ

/-- Result of a source expression: an existing object, or a prvalue. -/
inductive Res (L : Lib) (τ : L.Ty) : Type
  /-- `rv`: the expression is a non-const rvalue (xvalue) -/
  | object (i : Id) (rv : Bool) : Res L τ
  | prvalue (o : XObj L τ) (const : Bool) : Res L τ

/-- Bind a result to a reference parameter of a library function: a prvalue is materialised as a
temporary.  The Boolean tells which overload is chosen: the `Base<T> &&` one only for non-const
rvalues (util/macros.hpp:40-123), otherwise the `const Base<T> &` one. -/
def Res.bind {τ : L.Ty} : Res L τ → Machine L → Id × Bool × Machine L
  | .object i rv, st => (i, rv, st)
  | .prvalue o c, st => (.tmp st.nTmp, !c, { st.set (.tmp st.nTmp) o with nTmp := st.nTmp + 1 })

/-- Initialise the member of a new expression object from an argument: `cr_arg_t<T>` for the
`const &` overload, `arg_t<T>` for the `&&` overload; a member stored by value is moved from a
non-const rvalue, copied otherwise. -/
def member (i : Id) (rv : Bool) (τ : L.Ty) (st : Machine L) : Option (XObj L τ × Machine L) :=
  (st.cells.get i τ).map fun o =>
    if storedByValue (argSelector (!rv) o.argKind) then
      (o, if rv then st.set i o.movedFrom else st)
    else (.ref i τ, st)

/-- Evaluate a source expression: construct the expression object it denotes.  `none`: compile error
or use of a dead object. -/
def Src.eval : {τ : L.Ty} → Src L τ → Machine L → Option (Res L τ × Machine L)
  | _, .named a _, st => some (.object (.var a) false, st)
  | _, .moved a _, st => some (.object (.var a) true, st)
  | _, .movedConst a _, st => some (.object (.var a) false, st)
  | _, .temp τ v, st => some (.prvalue (.leaf τ v) false, st)
  | _, .constResult s, st =>
    (s.eval st).bind fun r => match r.1 with
      | .prvalue o _ => some (.prvalue o true, r.2)
      | .object _ _ => none
  | _, .un op s, st =>
    (s.eval st).bind fun r =>
      let b := r.1.bind r.2
      (member b.1 b.2.1 _ b.2.2).map fun x => (.prvalue (.un op x.1) false, x.2)
  | _, .bin op s t, st =>
    (s.eval st).bind fun r =>
      let b := r.1.bind r.2
      (t.eval b.2.2).bind fun r' =>
        let b' := r'.1.bind r'.2
        (member b.1 b.2.1 _ b'.2.2).bind fun x =>
          (member b'.1 b'.2.1 _ x.2).map fun y => (.prvalue (.bin op x.1 y.1) false, y.2)
  -- Dynamic.hpp:127-132
  | _, .makeDynamic s, st =>
    (s.eval st).bind fun r =>
      let b := r.1.bind r.2
      (member b.1 b.2.1 _ b.2.2).map fun x => (.prvalue (.dyn x.1) false, x.2)
  -- Dynamic.hpp:138-142, RefProxy.hpp:47: a `const DynamicBase &` parameter binds to anything
  | τ, .makeRef s, st =>
    (s.eval st).bind fun r =>
      let b := r.1.bind r.2
      (b.2.2.cells.get b.1 τ).bind fun o => match o with
        | .dyn _ => some (.prvalue (.handle .plain (some b.1) τ) false, b.2.2)
        | _ => none
  -- Proxy.hpp:36-40, 69-71: only non-const rvalues; a `Proxy` is moved (31), any other expression is
  -- copied into a new heap node
  | τ, .makeProxy s, st =>
    (s.eval st).bind fun r =>
      let b := r.1.bind r.2
      if b.2.1 then
        (b.2.2.cells.get b.1 τ).map fun o => match o with
          | .handle .owning n _ =>
            (.prvalue (.handle .owning n τ) false, b.2.2.set b.1 (XObj.handle (L := L) .owning none τ))
          | o => (.prvalue (.handle .owning (some (.heap b.2.2.nHeap)) τ) false,
              { b.2.2.set (.heap b.2.2.nHeap) (.dyn o) with nHeap := b.2.2.nHeap + 1 })
      else none

/-- Initialise a variable from a result (`auto x = ...`): a prvalue becomes the object itself, an
existing object is copied or moved. -/
def Res.init {τ : L.Ty} : Res L τ → Machine L → Option (XObj L τ × Machine L)
  | .prvalue o _, st => some (o, st)
  | .object i rv, st =>
    (st.cells.get i τ).map fun o => (o, if rv then st.set i o.movedFrom else st)

/-- End of the full expression: temporaries die. -/
def Machine.endFull (st : Machine L) : Machine L :=
  { st with cells := fun
      | .tmp _ => none
      | j => st.cells j }

/-- Statements. -/
inductive Stmt (L : Lib)
  /-- `auto a = s;` -/
  | auto (a : ℕ) {τ : L.Ty} (s : Src L τ)
  /-- `a = v;` for a leaf variable -/
  | write (a : ℕ) (τ : L.Ty) (v : L.Val τ)
  /-- `a = s;` for a handle variable `a`, where `s` is a handle of the same class (possibly made by an
  implicit conversion) -/
  | rebind (a : ℕ) {τ : L.Ty} (s : Src L τ)
  /-- end of the scope of `a` -/
  | destroy (a : ℕ)

/-- Run a statement. -/
def Stmt.run : Stmt L → Machine L → Option (Machine L)
  | .auto a s, st =>
    if a ∈ st.declared then none else
    (s.eval st).bind fun r => (r.1.init r.2).map fun x =>
      { (x.2.set (.var a) x.1).endFull with declared := a :: st.declared }
  | .write a τ v, st =>
    (st.cells.get (.var a) τ).bind fun o => match o with
      | .leaf _ _ => some (st.set (.var a) (XObj.leaf (L := L) τ v))
      | _ => none
  | @Stmt.rebind _ a τ s, st =>
    (st.cells.get (.var a) τ).bind fun o =>
      (s.eval st).bind fun r => (r.1.init r.2).bind fun x => match o, x.1 with
        | .handle k _ _, .handle k' n _ =>
          if k = k' then some ((x.2.set (.var a) (XObj.handle (L := L) k n τ)).endFull) else none
        | _, _ => none
  | .destroy a, st =>
    (st.cells (.var a)).map fun _ =>
      { st with cells := fun j => if j = .var a then none else st.cells j }

/-- Run a program. -/
def runStmts : List (Stmt L) → Machine L → Option (Machine L)
  | [], st => some st
  | c :: cs, st => (c.run st).bind (runStmts cs)

/-- No objects yet. -/
def Machine.start (L : Lib) : Machine L := ⟨fun _ => none, 0, 0, []⟩

end WG
