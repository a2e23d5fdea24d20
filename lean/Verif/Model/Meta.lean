import Verif.Model.Surface

/-!
# The template metafunctions (util/meta/type_list.hpp, template_helpers.hpp, index_sequence.hpp)

Class types are terms.  A metafunction is a function on terms; `none` is a program the compiler
rejects: no specialisation is defined for the arguments, a pack expansion has packs of different
lengths, a constant expression overflows or the instantiation does not end.
-/

namespace WG.Meta

/-- A type: a class that is not an instance of a template with type parameters only, or
`T<args...>` for such a template (`template <typename...> class`). -/
inductive Tp : Type
  | atom (n : ℕ) : Tp
  | inst (tmpl : ℕ) (args : List Tp) : Tp

mutual
/-- `std::is_same`. -/
def Tp.beq : Tp → Tp → Bool
  | .atom m, .atom n => m == n
  | .inst f as, .inst g bs => f == g && Tp.beqs as bs
  | _, _ => false
/-- `std::is_same`, packs. -/
def Tp.beqs : List Tp → List Tp → Bool
  | [], [] => true
  | a :: as, b :: bs => Tp.beq a b && Tp.beqs as bs
  | _, _ => false
end

mutual
theorem Tp.beq_iff : ∀ a b : Tp, Tp.beq a b = true ↔ a = b
  | .atom _, .atom _ => by simp [Tp.beq]
  | .inst _ as, .inst _ bs => by simp [Tp.beq, Tp.beqs_iff as bs]
  | .atom _, .inst _ _ => by simp [Tp.beq]
  | .inst _ _, .atom _ => by simp [Tp.beq]
theorem Tp.beqs_iff : ∀ as bs : List Tp, Tp.beqs as bs = true ↔ as = bs
  | [], [] => by simp [Tp.beqs]
  | a :: as, b :: bs => by simp [Tp.beqs, Tp.beq_iff a b, Tp.beqs_iff as bs]
  | [], _ :: _ => by simp [Tp.beqs]
  | _ :: _, [] => by simp [Tp.beqs]
end

instance : DecidableEq Tp := fun a b => decidable_of_iff _ (Tp.beq_iff a b)

/-- The template `tmp::type_list` (type_list.hpp:16-17). -/
def typeList : ℕ := 0

/-- `void`. -/
def void : Tp := .atom 2

/-- Members `value` and `type` of a class, with `type` of any sort. -/
structure Trait (α : Type) where
  value : Bool
  type : α
  deriving DecidableEq

/-- `std::false_type`, whose member `type` is `std::false_type`. -/
def falseType : Trait Tp := ⟨false, .atom 0⟩

/-- `std::true_type`. -/
def trueType : Trait Tp := ⟨true, .atom 1⟩

/-! ## Lists -/

/-- `concat` (type_list.hpp:40-54). -/
def concat : List Tp → Option Tp
  | [] => none
  | [.inst f as] => some (.inst f as)
  | .inst f as :: .inst g bs :: tail => if f = g then concat (.inst f (as ++ bs) :: tail) else none
  | _ => none
termination_by l => l.length

/-- `apply` (type_list.hpp:67-99).  The specialisations are for one, two and three arguments of which
the last is an instance of a template. -/
def apply (F : ℕ) : List Tp → Tp
  | [.inst _ items] => .inst F items
  | [a, .inst _ items] => .inst F (a :: items)
  | [a, b, .inst _ items] => .inst F (a :: b :: items)
  | args => .inst F args

/-- `apply_each` (type_list.hpp:114-144).  The primary template has no member `type`. -/
def applyEach (F : ℕ) : List Tp → Option Tp
  | [.inst l items] => some (.inst l (items.map fun i => .inst F [i]))
  | [a, .inst l items] => some (.inst l (items.map fun i => .inst F [a, i]))
  | [a, b, .inst l items] => some (.inst l (items.map fun i => .inst F [a, b, i]))
  | _ => none

/-- `apply_cartesian` (type_list.hpp:151-167). -/
def applyCartesian (C : ℕ) : Tp → Tp → Option Tp
  | .inst l as, .inst m bs =>
    if l = m then
      (as.mapM fun a => applyEach C [a, .inst l bs]).bind fun parts => concat (.inst l [] :: parts)
    else none
  | _, _ => none

/-- The recursion of `find` (type_list.hpp:174-193) on the pack. -/
def findIn : List Tp → Tp → ℤ → ℤ
  | [], _, _ => -1
  | x :: xs, y, i => if x = y then i else findIn xs y (i + 1)

/-- `find` (type_list.hpp:170-193). -/
def find : Tp → Tp → Option ℤ
  | .inst _ xs, y => some (findIn xs y 0)
  | .atom _, _ => none

/-- The recursion of `concat_if_unique` (type_list.hpp:204-213) on two packs of one template. -/
def uniqueIn (f : ℕ) (as : List Tp) : List Tp → Trait Tp
  | [] => ⟨true, .inst f as⟩
  | b :: bs => if findIn as b 0 ≥ 0 then falseType else uniqueIn f (as ++ [b]) bs

/-- `concat_if_unique` (type_list.hpp:201-213). -/
def concatIfUnique : Tp → Tp → Option (Trait Tp)
  | .inst f as, .inst g bs => if f = g then some (uniqueIn f as bs) else none
  | _, _ => none

/-- `concat_if_unique_many` (type_list.hpp:226-249). -/
def concatIfUniqueMany : List (Trait Tp) → Option (Trait Tp)
  | [] => some trueType
  | [u] => some u
  | [u, v] => if u.value && v.value then concatIfUnique u.type v.type else some falseType
  | u :: v :: w :: tail =>
    (concatIfUnique u.type v.type).bind fun c =>
      if c.value then concatIfUniqueMany (c :: w :: tail) else some c
termination_by l => l.length

/-- `filter` (type_list.hpp:352-368); `p t` is `P<t>::value`, `none` when it does not compile. -/
def filter (p : Tp → Option Bool) : Tp → Option Tp
  | .inst l [] => some (.inst l [])
  | .inst l ts =>
    (ts.mapM fun t => (p t).map fun v => if v then Tp.inst l [t] else .inst l []).bind concat
  | .atom _ => none

/-! ## Logic

`env b` are the members of the class `b`; `none` when instantiating `b` is an error. -/

/-- `conjunction` (template_helpers.hpp:27-33). -/
def conjunction (env : Tp → Option (Trait Tp)) : List Tp → Option (Trait Tp)
  | [] => some trueType
  | [b] => env b
  | b :: bs => (env b).bind fun t => if t.value then conjunction env bs else some t

/-- `disjunction` (template_helpers.hpp:38-44). -/
def disjunction {α : Type} (no : α) (env : Tp → Option (Trait α)) : List Tp → Option (Trait α)
  | [] => some ⟨false, no⟩
  | [b] => env b
  | b :: bs => (env b).bind fun t => if t.value then some t else disjunction no env bs

theorem sizeOf_append (as bs : List Tp) : sizeOf (as ++ bs) + 1 = sizeOf as + sizeOf bs := by
  induction as with
  | nil => simp; omega
  | cons a as ih => simp only [List.cons_append, List.cons.sizeOf_spec]; omega

/-- `expanding_disjunction` (type_list.hpp:22-31).  A first argument `type_list<T...>` is replaced by
its elements: that specialisation is more specialised than the two that take any first argument. -/
def expandingDisjunction {α : Type} (no : α) (env : Tp → Option (Trait α)) :
    List Tp → Option (Trait α)
  | [] => some ⟨false, no⟩
  | .inst f ts :: bs =>
    if f = typeList then expandingDisjunction no env (ts ++ bs)
    else if bs = [] then env (.inst f ts)
    else (env (.inst f ts)).bind fun t =>
      if t.value then some t else expandingDisjunction no env bs
  | .atom n :: bs =>
    if bs = [] then env (.atom n)
    else (env (.atom n)).bind fun t =>
      if t.value then some t else expandingDisjunction no env bs
termination_by l => sizeOf l
decreasing_by
  all_goals simp_wf
  all_goals try have := sizeOf_append ts bs
  all_goals omega

/-- `first_satisfies` (template_helpers.hpp:104-117).  `do_test<c>` has `value` of `Test<c>` and
`type` `c`; the last member of the list, `nothing_matches`, is true and has `type` `void`. -/
def firstSatisfies (test : Tp → Option Bool) (candidates : List Tp) : Option Tp :=
  let doTest : ℕ := 1
  let nothing : ℕ := 3
  let env : Tp → Option (Trait Tp) := fun
    | .inst 1 [c] => (test c).map fun v => ⟨v, c⟩
    | .atom 3 => some ⟨true, void⟩
    | _ => none
  (disjunction void env (candidates.map (fun c => .inst doTest [c]) ++ [.atom nothing])).map (·.type)

/-! ## Integer sequences -/

/-- The recursion of `make_index_sequence` (index_sequence.hpp:54-68) for a counter that reaches 0;
`S + N - 1` is computed in `int`. -/
def makeIndexFrom (S : ℤ) : ℕ → List ℤ → Option (List ℤ)
  | 0, acc => some acc
  | n + 1, acc =>
    if S + ((n : ℤ) + 1) < 2 ^ 31 then makeIndexFrom S n ((S + ((n : ℤ) + 1) - 1) :: acc) else none

/-- `make_index_sequence<N, S>` (index_sequence.hpp:54-68); a negative counter never reaches 0. -/
def makeIndexSequence (N S : ℤ) : Option (List ℤ) :=
  if N < 0 then none else makeIndexFrom S N.toNat []

/-- `concat_integer_sequence` (index_sequence.hpp:75-95). -/
def concatSeq : List (List ℤ) → Option (List ℤ)
  | [] => none
  | [a] => some a
  | a :: b :: tail => concatSeq ((a ++ b) :: tail)
termination_by l => l.length

/-! ## The conversion search written with the metafunctions -/

/-- A class of the model as a type. -/
def code (i : ℕ) : Tp := .atom (10 + i)

/-- The argument list of `expanding_disjunction` in `first_directly_evaluable_conversion_binary`
(AddConversions.hpp:161-168); the conversion targets are given by position.  Templates:
`convert_right_test` 11, `convert_left_test` 12, `convert_both_test` 13; classes:
`is_evaluable_test` 5, `nothing_matches<void>` 6. -/
def searchArgs (nl nr : ℕ) : Option (List Tp) :=
  let lto := (List.range nl).map code
  let rto := (List.range nr).map code
  (applyCartesian 13 (.inst typeList lto) (.inst typeList rto)).map fun both =>
    .atom 5 :: rto.map (fun r => .inst 11 [r]) ++ lto.map (fun l => .inst 12 [l]) ++
      [both, .atom 6]

/-- `is_directly_evaluable_unary<expr<Convert, B>, A>` (AddConversions.hpp:128, 135, 144-145) for the
conversion target `B` at position `i`. -/
def viaTest {A : Type} (sides : List (Option A)) (i : ℕ) : Option A := (sides[i]?).getD none

/-- Members of the tests (AddConversions.hpp:120-159), each a `conjunction` that looks at the node only
if the operands convert.  `convL` and `convR` hold, per conversion
target, the converted operand or `none` when there is no such conversion; `f` gives the node when it
is directly evaluable. -/
def searchEnv {A B C : Type} (f : A → B → Option C) (stayL : A) (stayR : B)
    (convL : List (Option A)) (convR : List (Option B)) : Tp → Option (Trait (Option C))
  | .atom 5 => some ⟨(f stayL stayR).isSome, f stayL stayR⟩
  | .inst 11 [.atom r] =>
    let x := (viaTest convR (r - 10)).bind fun b => f stayL b
    some ⟨x.isSome, x⟩
  | .inst 12 [.atom l] =>
    let x := (viaTest convL (l - 10)).bind fun a => f a stayR
    some ⟨x.isSome, x⟩
  | .inst 13 [.atom l, .atom r] =>
    let x := (viaTest convL (l - 10)).bind fun a => (viaTest convR (r - 10)).bind fun b => f a b
    some ⟨x.isSome, x⟩
  | _ => none

/-- `first_directly_evaluable_conversion_binary::type` (AddConversions.hpp:161-168); `none` is the
`static_assert` of `nothing_matches`. -/
def search {A B C : Type} (f : A → B → Option C) (stayL : A) (stayR : B)
    (convL : List (Option A)) (convR : List (Option B)) : Option C :=
  (searchArgs convL.length convR.length).bind fun args =>
    (expandingDisjunction none (searchEnv f stayL stayR convL convR) args).bind (·.type)

end WG.Meta
