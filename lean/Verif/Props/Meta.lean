import Verif.Lemmas.Meta

/-!
# C61: the template metafunctions
-/

namespace WG
open WG.Meta WG.Spec

/-- C61: `concat` accepts exactly one or more lists of one template and joins them in order. -/
theorem c61_concat (args : List Tp) (T : Tp) :
    concat args = some T ↔ ∃ (f : ℕ) (ls : List (List Tp)), ls ≠ [] ∧ args = ls.map (.inst f) ∧
      T = .inst f ls.flatten := by
  refine ⟨concat_some, ?_⟩
  rintro ⟨f, ls, hne, rfl, rfl⟩
  cases ls with
  | nil => exact absurd rfl hne
  | cons l ls => simpa using concat_lists f l ls

example : concat [.inst 7 [.atom 20, .atom 21], .inst 7 [], .inst 7 [.atom 20]] =
    some (.inst 7 [.atom 20, .atom 21, .atom 20]) :=
  (c61_concat _ _).2 ⟨7, [[.atom 20, .atom 21], [], [.atom 20]], by simp, rfl, rfl⟩

/-- C61: `apply` expands a list in last place after at most two arguments. -/
theorem c61_apply (F l : ℕ) (pre items : List Tp) (h : pre.length ≤ 2) :
    Meta.apply F (pre ++ [.inst l items]) = .inst F (pre ++ items) := by
  match pre, h with
  | [], _ => simp [Meta.apply]
  | [_], _ => simp [Meta.apply]
  | [_, _], _ => simp [Meta.apply]

/-- C61: without a list in last place, or after more arguments, `apply` passes its arguments on. -/
theorem c61_apply_plain (F : ℕ) (args : List Tp)
    (h : args.length > 3 ∨ ∀ x, args.getLast? = some x → ¬IsInstance x) :
    Meta.apply F args = .inst F args := by
  unfold Meta.apply
  split
  all_goals first | rfl | skip
  all_goals
    exfalso
    rcases h with h | h
    · simp at h
    · exact h _ rfl ⟨_, _, rfl⟩

/-- C61: the documentation says `apply<F, A, B, C>` is `F<A, B, C>` when there is no list; for every
last argument that is an instance of any template it is not. -/
theorem c61_doc_apply (F l : ℕ) (pre items : List Tp) (h : pre.length ≤ 2) :
    Meta.apply F (pre ++ [.inst l items]) ≠ .inst F (pre ++ [.inst l items]) := by
  rw [c61_apply F l pre items h]
  intro he
  have h1 : items = [.inst l items] := by simpa using he
  have h2 := congrArg sizeOf h1
  simp at h2
  omega

example : Meta.apply 9 [.atom 20, .inst 8 [.atom 21]] = .inst 9 [.atom 20, .atom 21] := rfl

/-- C61: `apply_each` applies the template to every element of the list, after at most two fixed
arguments, keeping the kind of list. -/
theorem c61_apply_each (F l : ℕ) (pre items : List Tp) (h : pre.length ≤ 2) :
    applyEach F (pre ++ [.inst l items]) =
      some (.inst l (items.map fun i => .inst F (pre ++ [i]))) := by
  match pre, h with
  | [], _ => simp [applyEach]
  | [_], _ => simp [applyEach]
  | [_, _], _ => simp [applyEach]

/-- C61: everything else is rejected, though the documentation says that without a list the result is
the list of one element `F<A, B, C>`. -/
theorem c61_doc_apply_each (F : ℕ) (args : List Tp)
    (h : args.length > 3 ∨ ∀ x, args.getLast? = some x → ¬IsInstance x) :
    applyEach F args = none := by
  unfold applyEach
  split
  all_goals first | rfl | skip
  all_goals
    exfalso
    rcases h with h | h
    · simp at h
    · exact h _ rfl ⟨_, _, rfl⟩

example : applyEach 9 [.atom 20, .atom 21, .atom 22] = none :=
  c61_doc_apply_each 9 _ (.inr (by rintro x hx ⟨f, as, rfl⟩; simp at hx))

/-- C61: `apply_cartesian` lists the template over all pairs, the second list running fastest; also
when either list is empty.  Two kinds of list are rejected. -/
theorem c61_cartesian (C l m : ℕ) (as bs : List Tp) :
    applyCartesian C (.inst l as) (.inst m bs) =
      if l = m then some (.inst l ((as.product bs).map fun p => .inst C [p.1, p.2])) else none := by
  have hm : ∀ as : List Tp, (as.mapM fun a => applyEach C [a, .inst l bs]) =
      some ((as.map fun a => bs.map fun b => Tp.inst C [a, b]).map (.inst l)) := by
    intro as
    induction as with
    | nil => rfl
    | cons a as ih => rw [List.mapM_cons, ih]; simp [applyEach]
  rw [applyCartesian]
  split_ifs with h
  · rw [hm, Option.bind_some, concat_lists]
    simp only [List.nil_append, List.product, List.flatMap, List.map_flatten, List.map_map]
    simp [Function.comp_def]
  · rfl

example : applyCartesian 9 (.inst 0 [.atom 20]) (.inst 0 [.atom 21, .atom 22]) =
    some (.inst 0 [.inst 9 [.atom 20, .atom 21], .inst 9 [.atom 20, .atom 22]]) := by
  rw [c61_cartesian, if_pos rfl]; rfl

/-- C61: `find` gives the first position of the type, or -1 exactly if it is absent. -/
theorem c61_find (l : ℕ) (xs : List Tp) (y : Tp) :
    (find (.inst l xs) y = some (-1) ∧ y ∉ xs) ∨
      ∃ n : ℕ, find (.inst l xs) y = some (n : ℤ) ∧ xs[n]? = some y ∧
        ∀ m < n, xs[m]? ≠ some y := by
  rcases findIn_spec xs y 0 with ⟨h, hn⟩ | ⟨n, h, hn, hm⟩
  · exact .inl ⟨by rw [find, h], hn⟩
  · exact .inr ⟨n, by rw [find, h, zero_add], hn, hm⟩

open Classical in
/-- C61: `concat_if_unique` joins two lists exactly if no element of the second is in the first and
the second has no repeated element. -/
theorem c61_unique (f : ℕ) (as bs : List Tp) :
    Meta.concatIfUnique (.inst f as) (.inst f bs) =
      some (if bs.Nodup ∧ ∀ b ∈ bs, b ∉ as then ⟨true, .inst f (as ++ bs)⟩ else falseType) := by
  rw [Meta.concatIfUnique, if_pos rfl, uniqueIn_eq]

/-- C61: the documentation says the lists are not checked for duplicates within themselves.  The
second list is: a repeated element makes the result false even when the first list is empty.  The
first is not. -/
theorem c61_doc_unique (f : ℕ) (x y : Tp) (h : x ≠ y) :
    Meta.concatIfUnique (.inst f []) (.inst f [x, x]) = some falseType ∧
    Meta.concatIfUnique (.inst f [x, x]) (.inst f [y]) = some ⟨true, .inst f [x, x, y]⟩ := by
  constructor
  · rw [c61_unique, if_neg (by simp)]
  · rw [c61_unique, if_pos (by simpa using h.symm)]; rfl

example : (.atom 20 : Tp) ≠ .atom 21 := by simp

/-- Lists of one template as the classes `concat_if_unique_many` takes. -/
def listTrait (f : ℕ) (l : List Tp) : Trait Tp := ⟨true, .inst f l⟩

open Classical in
/-- C61: `concat_if_unique_many` of lists without repeated elements joins them exactly if no element
is in two of them. -/
theorem c61_many (f : ℕ) (ls : List (List Tp)) (hne : ls ≠ []) (hl : ∀ l ∈ ls, l.Nodup) :
    concatIfUniqueMany (ls.map (listTrait f)) =
      some (if ls.flatten.Nodup then listTrait f ls.flatten else falseType) := by
  have key : ∀ (a b : List Tp), a.Nodup → b.Nodup →
      Meta.concatIfUnique (.inst f a) (.inst f b) =
        some (if (a ++ b).Nodup then listTrait f (a ++ b) else falseType) := by
    intro a b ha hb
    rw [c61_unique]
    have : (b.Nodup ∧ ∀ x ∈ b, x ∉ a) ↔ (a ++ b).Nodup := by
      rw [List.nodup_append']
      constructor
      · rintro ⟨_, h⟩
        exact ⟨ha, hb, fun x h1 h2 => h x h2 h1⟩
      · rintro ⟨_, _, h⟩
        exact ⟨hb, fun x h1 h2 => h h2 h1⟩
    simp only [this, listTrait]
  induction hn : ls.length generalizing ls with
  | zero => exact absurd (List.length_eq_zero_iff.1 hn) hne
  | succ n ih =>
    match ls, hl, hn with
    | [a], hl, _ =>
      have : a.Nodup := hl a (by simp)
      simp [concatIfUniqueMany, this]
    | [a, b], hl, _ =>
      simpa [concatIfUniqueMany, listTrait] using key a b (hl a (by simp)) (hl b (by simp))
    | a :: b :: c :: tail, hl, hn =>
      have hab := key a b (hl a (by simp)) (hl b (by simp))
      simp only [List.map_cons, concatIfUniqueMany]
      simp only [listTrait] at hab ⊢
      rw [hab, Option.bind_some]
      by_cases h : (a ++ b).Nodup
      · rw [if_pos h, if_pos rfl]
        have := ih ((a ++ b) :: c :: tail) (by simp)
          (by
            intro l hl'
            rcases List.mem_cons.1 hl' with rfl | hl'
            · exact h
            · exact hl l (List.mem_cons_of_mem _ (List.mem_cons_of_mem _ hl')))
          (by simpa using hn)
        simpa [listTrait] using this
      · rw [if_neg h, if_neg (by simp [falseType]), if_neg]
        intro hf
        apply h
        have : ((a ++ b) ++ (c :: tail).flatten).Nodup := by simpa using hf
        exact (List.nodup_append'.1 this).1

example : concatIfUniqueMany [listTrait 0 [.atom 20], listTrait 0 [.atom 21],
    listTrait 0 [.atom 20]] = some falseType := by
  classical
  exact (c61_many 0 [[.atom 20], [.atom 21], [.atom 20]] (by simp) (by simp)).trans (by simp)

/-- C61: three or more lists of which the first or second is a `false_type` are rejected by the
compiler, though the documentation gives `false_type`; two are not. -/
theorem c61_doc_many (u w : Trait Tp) (tail : List (Trait Tp)) :
    concatIfUniqueMany (falseType :: u :: w :: tail) = none ∧
    concatIfUniqueMany (u :: falseType :: w :: tail) = none ∧
    concatIfUniqueMany [falseType, u] = some falseType ∧
    concatIfUniqueMany [u, falseType] = some falseType := by
  refine ⟨?_, ?_, ?_, ?_⟩
  · simp [concatIfUniqueMany, Meta.concatIfUnique, falseType]
  · cases h : u.type <;> simp [concatIfUniqueMany, Meta.concatIfUnique, falseType, h]
  · simp [concatIfUniqueMany, falseType]
  · simp [concatIfUniqueMany, falseType]

/-- Leaf lists as classes: a list, or `false_type`. -/
def leafTrait {T : Type} (enc : T → Tp) : Option (List T) → Trait Tp
  | some l => listTrait typeList (l.map enc)
  | none => falseType

/-- C61: the leaf lists of expressions (which decide whether reverse mode evaluates each leaf type
once) are the ones these metafunctions compute. -/
theorem c61_leaves {T : Type} [DecidableEq T] (enc : T → Tp) (he : Function.Injective enc)
    (u : Option (List T)) (us : List (Option (List T))) :
    concatIfUniqueMany ((u :: us).map (leafTrait enc)) = (concatMany u us).map (leafTrait enc) := by
  have hfind : ∀ (as : List T) (b : T) (i : ℤ),
      findIn (as.map enc) (enc b) i = tfind as b i := by
    intro as b
    induction as with
    | nil => intro i; rfl
    | cons a as ih => intro i; simp [findIn, tfind, he.eq_iff, ih]
  have huniq : ∀ as bs : List T, Meta.concatIfUnique (.inst typeList (as.map enc))
      (.inst typeList (bs.map enc)) = some (leafTrait enc (WG.concatIfUnique as bs)) := by
    intro as bs
    rw [Meta.concatIfUnique, if_pos rfl]
    congr 1
    induction bs generalizing as with
    | nil => rfl
    | cons b bs ih =>
      rw [List.map_cons, uniqueIn, WG.concatIfUnique, hfind]
      split_ifs
      · rfl
      · rw [← ih (as ++ [b])]; simp
  induction us generalizing u with
  | nil => cases u <;> simp [concatIfUniqueMany, concatMany]
  | cons v us ih =>
    cases us with
    | nil =>
      cases u <;> cases v <;>
        simp [concatIfUniqueMany, concatMany, leafTrait, listTrait, falseType, huniq]
    | cons w us =>
      cases u with
      | none => simp [concatMany, leafTrait, (c61_doc_many _ _ _).1]
      | some a =>
        cases v with
        | none => simp [concatMany, leafTrait, (c61_doc_many _ _ _).2.1]
        | some b =>
          simp only [List.map_cons, concatIfUniqueMany, leafTrait, listTrait, huniq,
            Option.bind_some, concatMany]
          cases hab : WG.concatIfUnique a b with
          | none => simp [leafTrait, falseType]
          | some ab => simpa [leafTrait, listTrait] using ih (some ab)

example : Function.Injective code := fun a b h => by simpa [code] using h

/-- C61: `filter` keeps the elements that satisfy the predicate, in order; every element is tested,
so one test that does not compile is an error. -/
theorem c61_filter (p : Tp → Bool) (l : ℕ) (ts : List Tp) :
    Meta.filter (fun t => some (p t)) (.inst l ts) = some (.inst l (ts.filter p)) := by
  cases ts with
  | nil => rfl
  | cons t ts =>
    rw [Meta.filter, filter_lists p l (t :: ts), Option.bind_some, ← flatten_ite p (t :: ts)]
    · simpa using concat_lists l (if p t then [t] else []) (ts.map fun t => if p t then [t] else [])
    · simp

theorem c61_filter_error (p : Tp → Option Bool) (l : ℕ) (ts : List Tp) (t : Tp) (ht : t ∈ ts)
    (hp : p t = none) : Meta.filter p (.inst l ts) = none := by
  have : ∀ ts : List Tp, t ∈ ts →
      (ts.mapM fun t => (p t).map fun v => if v then Tp.inst l [t] else .inst l []) = none := by
    intro ts ht
    induction ts with
    | nil => simp at ht
    | cons x xs ih =>
      rw [List.mapM_cons]
      rcases List.mem_cons.1 ht with rfl | ht
      · simp [hp]
      · rw [ih ht]; cases p x <;> rfl
  cases ts with
  | nil => simp at ht
  | cons x xs => rw [Meta.filter, this _ ht]; · rfl
                 · simp

example : Meta.filter (fun t => some (t == .atom 20)) (.inst 0 [.atom 20, .atom 21, .atom 20]) =
    some (.inst 0 [.atom 20, .atom 20]) := by
  rw [c61_filter (fun t => t == .atom 20)]; rfl

/-- C61: the outcome of short-circuiting logic is determined. -/
theorem c61_short_unique {α : Type} {stop : Bool} {no : α} {env : Tp → Option (Trait α)}
    {l : List Tp} {r₁ r₂ : Option (Trait α)} (h₁ : Short stop no env l r₁)
    (h₂ : Short stop no env l r₂) : r₁ = r₂ := by
  rw [short_iff.1 h₁, short_iff.1 h₂]

/-- C61: `disjunction` and `conjunction` short-circuit; without arguments they are different types. -/
theorem c61_logic (env : Tp → Option (Trait Tp)) (l : List Tp) :
    Short true falseType.type env l (disjunction falseType.type env l) ∧
    Short false trueType.type env l (conjunction env l) ∧
    trueType.type ≠ falseType.type :=
  ⟨short_iff.2 (disjunction_eq _ _ _), short_iff.2 (conjunction_eq _ _), by
    intro h; injection h with h; exact absurd h (by omega)⟩

/-- C61: `expanding_disjunction` is the disjunction of its arguments with all type lists expanded,
also nested and empty ones; only when no argument is true may its `type` be that of `false_type`
rather than that of the last argument. -/
theorem c61_expanding {α : Type} (no : α) (env : Tp → Option (Trait α)) (l : List Tp) :
    ∃ r, Short true no env (flats l) r ∧
      (expandingDisjunction no env l = r ∨
        ∃ t, r = some t ∧ t.value = false ∧
          expandingDisjunction no env l = some ⟨false, no⟩) :=
  ⟨_, short_iff.2 rfl, expanding_eq no env l⟩

/-- C61: what follows the first true argument is never instantiated, even inside a list. -/
theorem c61_lazy {α : Type} (no : α) (env : Tp → Option (Trait α)) (l pre post : List Tp) (b : Tp)
    (t : Trait α) (hl : flats l = pre ++ b :: post)
    (h : ∀ x ∈ pre, ∃ u, env x = some u ∧ u.value = false) (hb : env b = some t)
    (ht : t.value = true) : expandingDisjunction no env l = some t := by
  obtain ⟨r, hr, h'⟩ := c61_expanding no env l
  have : r = some t := c61_short_unique hr (hl ▸ .found h hb ht)
  subst this
  rcases h' with h' | ⟨t', ht', hv, _⟩
  · exact h'
  · cases ht'; rw [ht] at hv; cases hv

example : expandingDisjunction 0
    (fun | .atom 5 => some ⟨false, 1⟩ | .atom 6 => some ⟨true, 2⟩ | _ => none)
    [.atom 5, .inst typeList [.inst typeList [], .atom 6, .atom 7], .atom 8] = some ⟨true, 2⟩ :=
  c61_lazy _ _ _ [.atom 5] [.atom 7, .atom 8] (.atom 6) _ (by simp [flats, flat]) (by simp) rfl rfl

/-- C61: `first_satisfies` gives the first candidate that passes the test, without instantiating the
test for later ones; an error before is an error; `void` if none passes. -/
theorem c61_first_satisfies (test : Tp → Option Bool) (pre post : List Tp) (c : Tp)
    (h : ∀ x ∈ pre, test x = some false) :
    (test c = some true → firstSatisfies test (pre ++ c :: post) = some c) ∧
    (test c = none → firstSatisfies test (pre ++ c :: post) = none) ∧
    firstSatisfies test pre = some void := by
  induction pre with
  | nil =>
    refine ⟨fun hc => ?_, fun hc => ?_, rfl⟩ <;> cases post <;>
      simp [firstSatisfies, disjunction, hc]
  | cons p pre ih =>
    have hp := h p (by simp)
    obtain ⟨h1, h2, h3⟩ := ih fun x hx => h x (by simp [hx])
    have step : ∀ l : List Tp, firstSatisfies test (p :: l) = firstSatisfies test l := by
      intro l
      cases l <;> simp [firstSatisfies, disjunction, hp]
    refine ⟨fun hc => ?_, fun hc => ?_, ?_⟩
    · rw [List.cons_append, step]; exact h1 hc
    · rw [List.cons_append, step]; exact h2 hc
    · rw [step]; exact h3

example : firstSatisfies (fun | .atom 20 => some false | .atom 21 => some true | _ => none)
    [.atom 20, .atom 21, .atom 22] = some (.atom 21) :=
  (c61_first_satisfies _ [.atom 20] [.atom 22] (.atom 21) (by simp)).1 rfl

/-- C61: `make_index_sequence<N, S>` is `S, …, S + N - 1` if `S + N` fits an `int`, and is rejected
otherwise. -/
theorem c61_make_index (N S : ℤ) :
    makeIndexSequence N S = if N < 0 ∨ 0 < N ∧ S + N ≥ 2 ^ 31 then none
      else some ((List.range N.toNat).map fun i => S + (i : ℤ)) := by
  have key : ∀ (n : ℕ) (acc : List ℤ), S + (n : ℤ) < 2 ^ 31 ∨ n = 0 →
      makeIndexFrom S n acc = some ((List.range n).map (fun i => S + (i : ℤ)) ++ acc) := by
    intro n
    induction n with
    | zero => intro acc _; rfl
    | succ n ih =>
      intro acc h
      have h : S + ((n : ℤ) + 1) < 2 ^ 31 := by
        rcases h with h | h
        · push_cast at h; exact h
        · omega
      rw [makeIndexFrom, if_pos h, ih _ (by left; omega), List.range_succ]
      simp
      ring
  rw [makeIndexSequence]
  by_cases hN : N < 0
  · simp [hN]
  · obtain ⟨n, rfl⟩ := Int.eq_ofNat_of_zero_le (not_lt.1 hN)
    rw [if_neg hN]
    by_cases h : (n : ℤ) < 0 ∨ 0 < (n : ℤ) ∧ S + (n : ℤ) ≥ 2 ^ 31
    · rw [if_pos h]
      obtain ⟨h1, h2⟩ := h.resolve_left hN
      cases n with
      | zero => simp at h1
      | succ n =>
        rw [Int.toNat_natCast, makeIndexFrom, if_neg]
        push_cast at h2
        omega
    · rw [if_neg h, Int.toNat_natCast, key n [] (by omega), List.append_nil]

example : makeIndexSequence 3 5 = some [5, 6, 7] := by rw [c61_make_index]; decide

/-- C61: `concat_integer_sequence` joins one or more sequences in order. -/
theorem c61_concat_seq (ls : List (List ℤ)) :
    concatSeq ls = if ls = [] then none else some ls.flatten := by
  cases ls with
  | nil => simp [concatSeq]
  | cons a ls =>
    simp only [reduceCtorEq, if_false, List.flatten_cons]
    induction ls generalizing a with
    | nil => simp [concatSeq]
    | cons b ls ih => rw [concatSeq, ih]; simp

/-- C61: the conversion search written with these metafunctions tries, in order, no conversion, each
conversion of the right operand, each of the left operand and each pair, skipping conversions that
do not exist. -/
theorem c61_search {A B C : Type} (f : A → B → Option C) (stayL : A) (stayR : B)
    (convL : List (Option A)) (convR : List (Option B)) :
    search f stayL stayR convL convR =
      firstConv2 f stayL stayR (convL.filterMap id) (convR.filterMap id) := by
  -- the argument list
  have hargs : searchArgs convL.length convR.length = some
      (.atom 5 :: ((List.range convR.length).map code).map (fun r => .inst 11 [r]) ++
        ((List.range convL.length).map code).map (fun l => .inst 12 [l]) ++
        [.inst typeList ((((List.range convL.length).map code).product
          ((List.range convR.length).map code)).map fun p => .inst 13 [p.1, p.2]), .atom 6]) := by
    simp [searchArgs, c61_cartesian]
  let env := searchEnv f stayL stayR convL convR
  let gR := fun b : Option B => b.bind fun b => f stayL b
  let gL := fun a : Option A => a.bind fun a => f a stayR
  let gB := fun p : Option A × Option B => p.1.bind fun a => p.2.bind fun b => f a b
  -- the outcome over a list of tests followed by one that does not compile
  have hout : ∀ (l : List Tp) (g : Tp → Option C),
      (∀ x ∈ l, env x = some ⟨(g x).isSome, g x⟩) →
      shortOut true none env (l ++ [.atom 6]) =
        (l.findSome? g).map fun c => ⟨true, some c⟩ := by
    intro l g hl
    induction l with
    | nil => rfl
    | cons x l ih =>
      have ih := ih fun y hy => hl y (by simp [hy])
      have hx := hl x (by simp)
      have : ∀ l' : List Tp, l' ≠ [] → shortOut true none env (x :: l') =
          (env x).bind fun t => if t.value = true then some t else shortOut true none env l' := by
        intro l' h'
        cases l' with
        | nil => exact absurd rfl h'
        | cons y l' => rfl
      rw [List.cons_append, this _ (by simp), ih, hx]
      cases h : g x <;> simp [h]
  let g : Tp → Option C := fun x => (env x).bind (·.type)
  have henv : ∀ x t, env x = some t → env x = some ⟨(g x).isSome, g x⟩ := by
    intro x t h
    have : t.value = t.type.isSome := by
      simp only [env, searchEnv] at h
      split at h
      all_goals first | (cases h; rfl) | cases h
    simp only [g, h, Option.bind_some, ← this]
  -- the tests by position
  have hvia : ∀ {X : Type} (l : List (Option X)), (List.range l.length).map (viaTest l) = l := by
    intro X l
    apply List.ext_getElem
    · simp
    · intro i h1 h2
      simp [viaTest, h2]
  have hsome : ∀ {X : Type} (l : List (Option X)) (h : X → Option C),
      l.findSome? (fun o => o.bind h) = (l.filterMap id).findSome? h := by
    intro X l h
    induction l with
    | nil => rfl
    | cons o l ih => cases o <;> simp [List.findSome?_cons, ih]
  have hrange : ∀ {X : Type} (l : List (Option X)) (h : X → Option C),
      (List.range l.length).findSome? (fun i => (viaTest l i).bind h) =
        (l.filterMap id).findSome? h := by
    intro X l h
    rw [← hsome]
    conv_rhs => rw [← hvia l]
    rw [List.findSome?_map]
    rfl
  have hflat : ∀ {X Y : Type} (l : List X) (h : X → List Y) (k : Y → Option C),
      (l.flatMap h).findSome? k = l.findSome? fun a => (h a).findSome? k := by
    intro X Y l h k
    induction l with
    | nil => rfl
    | cons a l ih =>
      rw [List.flatMap_cons, List.findSome?_append, List.findSome?_cons, ih]
      cases (h a).findSome? k <;> rfl
  have hR : (((List.range convR.length).map code).map fun r => Tp.inst 11 [r]).findSome? g =
      ((convR.filterMap id).map (stayL, ·)).findSome? fun p => f p.1 p.2 := by
    rw [List.map_map, List.findSome?_map, List.findSome?_map]
    refine Eq.trans ?_ (hrange convR (f stayL))
    congr 1
    funext i
    simp [g, env, searchEnv, code]
  have hL : (((List.range convL.length).map code).map fun l => Tp.inst 12 [l]).findSome? g =
      ((convL.filterMap id).map (·, stayR)).findSome? fun p => f p.1 p.2 := by
    rw [List.map_map, List.findSome?_map, List.findSome?_map]
    refine Eq.trans ?_ (hrange convL fun a => f a stayR)
    congr 1
    funext i
    simp [g, env, searchEnv, code]
  have hB : ((((List.range convL.length).map code).product ((List.range convR.length).map code)).map
        fun p => Tp.inst 13 [p.1, p.2]).findSome? g =
      ((convL.filterMap id).flatMap fun l => (convR.filterMap id).map (l, ·)).findSome?
        fun p => f p.1 p.2 := by
    rw [List.findSome?_map, List.product, hflat, hflat, List.findSome?_map]
    refine Eq.trans ?_ (Eq.trans (hrange convL fun a => (convR.filterMap id).findSome? (f a)) ?_)
    · congr 1
      funext i
      simp only [Function.comp_apply, List.findSome?_map]
      cases hi : viaTest convL i with
      | none => 
        rw [List.findSome?_eq_none_iff.2]
        · rfl
        · intro j _
          simp [g, env, searchEnv, code, hi]
      | some a =>
        rw [Option.bind_some, ← hrange convR]
        congr 1
        funext j
        simp [g, env, searchEnv, code, hi]
    · congr 1
      funext a
      rw [List.findSome?_map]
      rfl
  -- together
  have hl : ∀ x ∈ (Tp.atom 5 :: ((List.range convR.length).map code).map (fun r => .inst 11 [r]) ++
        ((List.range convL.length).map code).map (fun l => .inst 12 [l]) ++
        (((List.range convL.length).map code).product
          ((List.range convR.length).map code)).map fun p => .inst 13 [p.1, p.2]),
      env x = some ⟨(g x).isSome, g x⟩ := by
    intro x hx
    have : ∃ t, env x = some t := by
      simp only [List.cons_append, List.mem_cons, List.mem_append, List.mem_map, List.mem_range,
        exists_exists_and_eq_and] at hx
      rcases hx with rfl | (⟨i, _, rfl⟩ | ⟨i, _, rfl⟩) | ⟨⟨a, b⟩, hab, rfl⟩
      · exact ⟨_, rfl⟩
      · exact ⟨_, rfl⟩
      · exact ⟨_, rfl⟩
      · rw [List.pair_mem_product] at hab
        obtain ⟨ha, hb⟩ := hab
        obtain ⟨i, _, rfl⟩ := List.mem_map.1 ha
        obtain ⟨j, _, rfl⟩ := List.mem_map.1 hb
        exact ⟨_, rfl⟩
    obtain ⟨t, ht⟩ := this
    exact henv x t ht
  have hself : ∀ l : List Tp, (∀ x ∈ l, flat x = [x]) → flats l = l := by
    intro l h
    induction l with
    | nil => rfl
    | cons x l ih =>
      rw [flats, h x (by simp), ih fun y hy => h y (by simp [hy])]; rfl
  have hfl : flats (.atom 5 :: ((List.range convR.length).map code).map (fun r => .inst 11 [r]) ++
        ((List.range convL.length).map code).map (fun l => .inst 12 [l]) ++
        [.inst typeList ((((List.range convL.length).map code).product
          ((List.range convR.length).map code)).map fun p => .inst 13 [p.1, p.2]), .atom 6]) =
      (Tp.atom 5 :: ((List.range convR.length).map code).map (fun r => .inst 11 [r]) ++
        ((List.range convL.length).map code).map (fun l => .inst 12 [l]) ++
        (((List.range convL.length).map code).product
          ((List.range convR.length).map code)).map fun p => .inst 13 [p.1, p.2]) ++ [.atom 6] := by
    rw [flats_append, flats_append, flats, flats, flats, flats, flat, flat, flat, if_pos rfl,
      hself, hself, hself]
    · simp
    all_goals
      intro x hx
      obtain ⟨y, _, rfl⟩ := List.mem_map.1 hx
      simp [flat, typeList]
  have ho := hout _ g hl
  rw [← hfl] at ho
  rw [search, hargs, Option.bind_some]
  have hfirst : firstConv2 f stayL stayR (convL.filterMap id) (convR.filterMap id) =
      List.findSome? g (Tp.atom 5 ::
        ((List.range convR.length).map code).map (fun r => Tp.inst 11 [r]) ++
        ((List.range convL.length).map code).map (fun l => Tp.inst 12 [l]) ++
        (((List.range convL.length).map code).product
          ((List.range convR.length).map code)).map fun p => Tp.inst 13 [p.1, p.2]) := by
    rw [firstConv2, List.findSome?_append, List.findSome?_append, List.findSome?_append,
      List.findSome?_append, List.findSome?_cons, List.findSome?_cons, hR, hL, hB]
    rfl
  rw [hfirst]
  rcases expanding_eq none env _ with h | ⟨t, h1, h2, h3⟩
  · rw [h, ho]
    cases List.findSome? g _ <;> rfl
  · rw [ho] at h1
    cases hg : List.findSome? g _ with
    | none => rw [hg] at h1; cases h1
    | some c => rw [hg] at h1; cases h1; cases h2

/-- C61: so the preparation of binary nodes in this model (Surface.lean) is the search of the code. -/
theorem c61_prepare {ε : ℝ} (t : Tag2) (x y : Tree ε) :
    elab2 t x y =
      search (fun (s : Side x.1) (u : Side y.1) =>
        (direct2 t s.ty u.ty).map fun r => ⟨r.1, .bin 0 r.2 (s.apply x.2) (u.apply y.2)⟩)
        .stay .stay ((convTo x.1).map fun b => (conv1 x.1 b).map (.via b))
        ((convTo y.1).map fun b => (conv1 y.1 b).map (.via b)) := by
  rw [c61_search, elab2, sides, sides]
  congr 1 <;> rw [List.filterMap_map] <;> rfl

/-- A right conversion is taken before a left one: `6` rather than `7`. -/
example : search (fun a b : ℕ => if a + b = 0 then none else some (a + b)) 0 0
    [some 7] [none, some 6] = some 6 := by
  rw [c61_search]; rfl

end WG
