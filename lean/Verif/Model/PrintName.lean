import Mathlib.Data.List.Basic
import Mathlib.Data.Int.Notation

/-!
# Names of expressions, for debugging

src/debug/PrintExpression.hpp.  The regular expressions are run by a backtracking matcher with
continuations, as ECMAScript (the default grammar of `std::regex`) defines it: a starred expression is
tried as often as possible first, an iteration must consume something.  What is not modelled: the
demangler (`boost::core::demangle(typeid(T).name())` is a given string), the limits of the stack of the
implementation of `std::regex`, failures of the stream.
-/

namespace WG.Debug

/-- The regular expressions of PrintExpression.hpp:17 and 20; `grp` is the capturing group. -/
inductive Rx where
  | chr (p : Char → Bool)
  | seq (a b : Rx)
  | star (a : Rx)
  | grp (a : Rx)

/-- What remains to be matched, and what the group captured. -/
abbrev Cont := List Char → Option (List Char) → Option (List Char)

/-- `n` bounds the number of iterations. -/
def starN (body : Cont → Cont) (k : Cont) : ℕ → Cont
  | 0, s, g => k s g
  | n + 1, s, g =>
    (body (fun s' g' => if s'.length < s.length then starN body k n s' g' else none) s g).or (k s g)

/-- The matcher: match `r` at the front of the text, then continue with `k`. -/
def Rx.run : Rx → Cont → Cont
  | .chr p, k, s, g => match s with
    | [] => none
    | c :: s => if p c then k s g else none
  | .seq a b, k, s, g => a.run (b.run k) s g
  | .star a, k, s, g => starN a.run k s.length s g
  | .grp a, k, s, _ => a.run (fun s' _ => k s' (some (s.take (s.length - s'.length)))) s none

/-- `std::regex_search`: the first position at which there is a match; the result is `matches[1]` (empty
if the group did not take part). -/
def Rx.search (r : Rx) : List Char → Option (List Char)
  | [] => r.run (fun _ g => some (g.getD [])) [] none
  | c :: s => (r.run (fun _ g => some (g.getD [])) (c :: s) none).or (r.search s)

/-- `[A-Za-z0-9_]`. -/
def isWord (c : Char) : Bool :=
  ('A' ≤ c && c ≤ 'Z') || ('a' ≤ c && c ≤ 'z') || ('0' ≤ c && c ≤ '9') || c == '_'

/-- `.`: not a line terminator. -/
def isDot (c : Char) : Bool := !(c == '\n' || c == '\r')

/-- `(?:[A-Za-z0-9_]*::)*`. -/
def rxQualifiers : Rx := .star (.seq (.star (.chr isWord)) (.seq (.chr (· == ':')) (.chr (· == ':'))))
/-- PrintExpression.hpp:17, `(?:[A-Za-z0-9_]*::)*([A-Za-z0-9_]*)<`. -/
def rxTemplate : Rx := .seq rxQualifiers (.seq (.grp (.star (.chr isWord))) (.chr (· == '<')))
/-- PrintExpression.hpp:20, `(?:[A-Za-z0-9_]*::)*(.*)`. -/
def rxAll : Rx := .seq rxQualifiers (.grp (.star (.chr isDot)))

/-- `getTemplateName(full_name, include_tp)`, PrintExpression.hpp:16-30. -/
def getTemplateName (full : List Char) (includeTp : Bool) : List Char :=
  ((if includeTp then rxAll else rxTemplate).search full).getD full

/-- A type as `getTypeString` sees it: the demangled name of the type without reference and qualifier
(`typeid` ignores both), whether what is left after removing the reference is const, and the reference. -/
inductive Ref where
  | none
  | lvalue
  | rvalue
  deriving DecidableEq
structure CType where
  name : List Char
  const : Bool
  ref : Ref
  deriving DecidableEq

/-- `std::is_const<T>`: false of every reference. -/
def CType.isConst (t : CType) : Bool := t.const && t.ref = .none

/-- `getTypeString<T>()`, PrintExpression.hpp:33-42. -/
def getTypeString (t : CType) : List Char :=
  (if t.isConst then "const".toList else []) ++ getTemplateName t.name true ++
    (if t.ref = .lvalue then ['&'] else []) ++ (if t.ref = .rvalue then ['&', '&'] else [])

/-- The static type of an expression, as `getExpressionTypeName` distinguishes it: a conversion with the
name of its target, or the name of the class and whether it is a leaf (`is_leaf_expression`). -/
inductive Node where
  | conversion (target : List Char)
  | other (name : List Char) (leaf : Bool)

/-- `getExpressionTypeName`, PrintExpression.hpp:45-62; the overload for conversions is the better match. -/
def getExpressionTypeName : Node → List Char
  | .conversion target => "Conversion to ".toList ++ getTemplateName target true
  | .other name leaf => getTemplateName name leaf

/-- What a call of the functor does. -/
inductive Printed where
  /-- These characters are written. -/
  | text (s : List Char)
  /-- `std::length_error` is thrown by the constructor of the string. -/
  | lengthError
  /-- Signed overflow. -/
  | undefined
  deriving DecidableEq

/-- `PrintExpressionFunctor::operator()(expr, depth)`, PrintExpression.hpp:65-78, for a 32-bit `int`, a
64-bit `std::size_t` and strings shorter than 2^63.  Memory is not exhausted. -/
def printNode (n : Node) (depth : ℤ) : Printed :=
  if 2 * depth < -2 ^ 31 ∨ 2 ^ 31 ≤ 2 * depth then .undefined
  else if (2 ^ 63 : ℤ) ≤ (2 * depth) % 2 ^ 64 then .lengthError
  else .text (List.replicate ((2 * depth) % 2 ^ 64).toNat ' ' ++ " - ".toList ++ getExpressionTypeName n ++ ['\n'])

end WG.Debug
