import Verif.Spec.Meta

/-!
# Lemmas about the metafunctions
-/

namespace WG.Meta
open WG.Spec

theorem concat_lists (f : ℕ) (as : List Tp) (ls : List (List Tp)) :
    concat (.inst f as :: ls.map (.inst f)) = some (.inst f (as ++ ls.flatten)) := by
  induction ls generalizing as with
  | nil => simp [concat]
  | cons b ls ih => simp [concat, ih]

theorem concat_some {args : List Tp} {T : Tp} (h : concat args = some T) :
    ∃ (f : ℕ) (ls : List (List Tp)), ls ≠ [] ∧ args = ls.map (.inst f) ∧
      T = .inst f ls.flatten := by
  induction hn : args.length generalizing args with
  | zero => rw [List.length_eq_zero_iff.1 hn] at h; simp [concat] at h
  | succ n ih =>
    match args, h, hn with
    | [.inst f as], h, _ => exact ⟨f, [as], by simp, by simp, by simpa [concat, eq_comm] using h⟩
    | [.atom _], h, _ => simp [concat] at h
    | .atom _ :: _ :: _, h, _ => simp [concat] at h
    | .inst _ _ :: .atom _ :: _, h, _ => simp [concat] at h
    | .inst f as :: .inst g bs :: tail, h, hn =>
      rw [concat] at h
      split_ifs at h with hfg
      subst hfg
      obtain ⟨g, ls, hne, hargs, hT⟩ := ih h (by simpa using hn)
      cases ls with
      | nil => exact absurd rfl hne
      | cons l ls =>
        simp only [List.map_cons, List.cons.injEq, Tp.inst.injEq] at hargs
        obtain ⟨⟨rfl, rfl⟩, htail⟩ := hargs
        exact ⟨f, as :: bs :: ls, by simp, by simp [htail], by simpa using hT⟩

theorem findIn_spec (xs : List Tp) (y : Tp) (i : ℤ) :
    (findIn xs y i = -1 ∧ y ∉ xs) ∨
      ∃ n : ℕ, findIn xs y i = i + n ∧ xs[n]? = some y ∧ ∀ m < n, xs[m]? ≠ some y := by
  induction xs generalizing i with
  | nil => left; simp [findIn]
  | cons x xs ih =>
    by_cases h : x = y
    · right; exact ⟨0, by simp [findIn, h], by simp [h], by simp⟩
    · rcases ih (i + 1) with ⟨h1, h2⟩ | ⟨n, h1, h2, h3⟩
      · left; simp [findIn, h, h1, h2, Ne.symm h]
      · right
        refine ⟨n + 1, ?_, by simpa using h2, ?_⟩
        · simp [findIn, h, h1]; ring
        · rintro (_ | m) hm
          · simpa using h
          · simpa using h3 m (by omega)

theorem findIn_nonneg (xs : List Tp) (y : Tp) : findIn xs y 0 ≥ 0 ↔ y ∈ xs := by
  rcases findIn_spec xs y 0 with ⟨h, hn⟩ | ⟨n, h, hn, -⟩
  · simp [h, hn]
  · exact ⟨fun _ => List.mem_of_getElem? hn, fun _ => by omega⟩

open Classical in
theorem uniqueIn_eq (f : ℕ) (as bs : List Tp) :
    uniqueIn f as bs =
      if bs.Nodup ∧ ∀ b ∈ bs, b ∉ as then ⟨true, .inst f (as ++ bs)⟩ else falseType := by
  induction bs generalizing as with
  | nil => simp [uniqueIn]
  | cons b bs ih =>
    rw [uniqueIn]
    by_cases hb : b ∈ as
    · rw [if_pos ((findIn_nonneg as b).2 hb), if_neg]
      rintro ⟨_, h⟩
      exact h b (by simp) hb
    · rw [if_neg (fun h => hb ((findIn_nonneg as b).1 h)), ih]
      have : (bs.Nodup ∧ ∀ x ∈ bs, x ∉ as ++ [b]) ↔
          ((b :: bs).Nodup ∧ ∀ x ∈ b :: bs, x ∉ as) := by
        simp only [List.mem_append, List.mem_cons, List.not_mem_nil, or_false, not_or,
          List.nodup_cons, forall_eq_or_imp]
        constructor
        · rintro ⟨h1, h2⟩
          exact ⟨⟨fun h => (h2 b h).2 rfl, h1⟩, hb, fun x hx => (h2 x hx).1⟩
        · rintro ⟨⟨h1, h2⟩, _, h4⟩
          exact ⟨h2, fun x hx => ⟨h4 x hx, fun h => h1 (h ▸ hx)⟩⟩
      simp only [this, List.append_assoc, List.singleton_append]

theorem filter_lists (p : Tp → Bool) (l : ℕ) (ts : List Tp) :
    (ts.mapM fun t => (some (p t)).map fun v => if v then Tp.inst l [t] else .inst l []) =
      some ((ts.map fun t => if p t then [t] else []).map (.inst l)) := by
  induction ts with
  | nil => rfl
  | cons t ts ih =>
    rw [List.mapM_cons, ih]
    cases h : p t <;> simp [h]

theorem flatten_ite (p : Tp → Bool) (ts : List Tp) :
    (ts.map fun t => if p t then [t] else []).flatten = ts.filter p := by
  induction ts with
  | nil => rfl
  | cons t ts ih => cases h : p t <;> simp [h, ih]

theorem Short.cons {α : Type} {stop : Bool} {no : α} {env : Tp → Option (Trait α)} {b : Tp}
    {u : Trait α} {l : List Tp} {r : Option (Trait α)} (hb : env b = some u)
    (hu : u.value = !stop) (hl : l ≠ []) (h : Short stop no env l r) :
    Short stop no env (b :: l) r := by
  have hx : ∀ {pre : List Tp}, (∀ x ∈ pre, ∃ u, env x = some u ∧ u.value = !stop) →
      ∀ x ∈ b :: pre, ∃ u, env x = some u ∧ u.value = !stop := by
    rintro pre h x hx
    rcases List.mem_cons.1 hx with rfl | hx
    · exact ⟨u, hb, hu⟩
    · exact h x hx
  cases h with
  | found h hb ht => exact .found (pre := b :: _) (hx h) hb ht
  | error h hb => exact .error (pre := b :: _) (hx h) hb
  | last h hb ht => exact .last (pre := b :: _) (hx h) hb ht
  | empty => exact absurd rfl hl

theorem Short.single {α : Type} {stop : Bool} {no : α} {env : Tp → Option (Trait α)} (b : Tp) :
    Short stop no env [b] (env b) := by
  cases h : env b with
  | none => exact .error (pre := []) (by simp) h
  | some t =>
    by_cases ht : t.value = stop
    · exact .found (pre := []) (by simp) h ht
    · exact .last (pre := []) (by simp) h (by revert ht; cases t.value <;> cases stop <;> simp)

theorem Short.head {α : Type} {stop : Bool} {no : α} {env : Tp → Option (Trait α)} (b : Tp)
    {l : List Tp} {r : Option (Trait α)} (hl : l ≠ []) (h : Short stop no env l r) :
    Short stop no env (b :: l) ((env b).bind fun t => if t.value = stop then some t else r) := by
  cases hb : env b with
  | none => exact .error (pre := []) (by simp) hb
  | some t =>
    by_cases ht : t.value = stop
    · simpa [ht] using Short.found (pre := []) (post := l) (no := no) (by simp) hb ht
    · simpa [ht] using Short.cons hb (by revert ht; cases t.value <;> cases stop <;> simp) hl h

/-- The outcome computed. -/
def shortOut {α : Type} (stop : Bool) (no : α) (env : Tp → Option (Trait α)) :
    List Tp → Option (Trait α)
  | [] => some ⟨!stop, no⟩
  | [b] => env b
  | b :: c :: bs => (env b).bind fun t => if t.value = stop then some t else
      shortOut stop no env (c :: bs)

theorem shortOut_pre {α : Type} {stop : Bool} {no : α} {env : Tp → Option (Trait α)}
    {pre : List Tp} (h : ∀ x ∈ pre, ∃ u, env x = some u ∧ u.value = !stop) (c : Tp)
    (bs : List Tp) :
    shortOut stop no env (pre ++ c :: bs) = shortOut stop no env (c :: bs) := by
  induction pre with
  | nil => rfl
  | cons b pre ih =>
    obtain ⟨u, hu, hv⟩ := h b (by simp)
    have ih := ih fun x hx => h x (by simp [hx])
    have hne : ¬u.value = stop := by rw [hv]; cases stop <;> simp
    cases pre with
    | nil => simp [shortOut, hu, hne]
    | cons d pre =>
      rw [← ih]
      simp [shortOut, hu, hne]

theorem short_iff {α : Type} {stop : Bool} {no : α} {env : Tp → Option (Trait α)} {l : List Tp}
    {r : Option (Trait α)} : Short stop no env l r ↔ r = shortOut stop no env l := by
  constructor
  · intro h
    cases h with
    | @found pre post b t h hb ht =>
      rw [shortOut_pre h]
      cases post <;> simp [shortOut, hb, ht]
    | @error pre post b h hb =>
      rw [shortOut_pre h]
      cases post <;> simp [shortOut, hb]
    | @last pre b t h hb ht =>
      rw [shortOut_pre h]
      simp [shortOut, hb]
    | empty => rfl
  · rintro rfl
    induction l with
    | nil => exact .empty
    | cons b l ih =>
      cases l with
      | nil => exact Short.single b
      | cons c bs => exact Short.head b (by simp) ih

theorem disjunction_eq {α : Type} (no : α) (env : Tp → Option (Trait α)) (l : List Tp) :
    disjunction no env l = shortOut true no env l := by
  induction l with
  | nil => rfl
  | cons b l ih =>
    cases l with
    | nil => rfl
    | cons c bs => simp [disjunction, shortOut, ih]

theorem conjunction_eq (env : Tp → Option (Trait Tp)) (l : List Tp) :
    conjunction env l = shortOut false trueType.type env l := by
  induction l with
  | nil => rfl
  | cons b l ih =>
    cases l with
    | nil => rfl
    | cons c bs =>
      simp only [conjunction, shortOut]
      cases env b with
      | none => rfl
      | some t => cases h : t.value <;> simp [h, ih]

theorem flats_append (as bs : List Tp) : flats (as ++ bs) = flats as ++ flats bs := by
  induction as with
  | nil => rfl
  | cons a as ih => simp [flats, ih]

theorem expanding_eq {α : Type} (no : α) (env : Tp → Option (Trait α)) (l : List Tp) :
    expandingDisjunction no env l = shortOut true no env (flats l) ∨
      ∃ t, shortOut true no env (flats l) = some t ∧ t.value = false ∧
        expandingDisjunction no env l = some ⟨false, no⟩ := by
  have step : ∀ (b : Tp) (bs : List Tp), bs ≠ [] → flat b = [b] →
      (expandingDisjunction no env (b :: bs) =
        (env b).bind fun t => if t.value then some t else expandingDisjunction no env bs) →
      (expandingDisjunction no env bs = shortOut true no env (flats bs) ∨
        ∃ t, shortOut true no env (flats bs) = some t ∧ t.value = false ∧
          expandingDisjunction no env bs = some ⟨false, no⟩) →
      (expandingDisjunction no env (b :: bs) = shortOut true no env (flats (b :: bs)) ∨
        ∃ t, shortOut true no env (flats (b :: bs)) = some t ∧ t.value = false ∧
          expandingDisjunction no env (b :: bs) = some ⟨false, no⟩) := by
    intro b bs _ hf he ih
    rw [he, flats, hf, List.singleton_append]
    cases hfl : flats bs with
    | nil =>
      rw [hfl] at ih
      have hbs : expandingDisjunction no env bs = some ⟨false, no⟩ := by
        rcases ih with h | ⟨_, _, _, h⟩
        · exact h
        · exact h
      rw [hbs, shortOut]
      cases hb : env b with
      | none => left; rfl
      | some t =>
        cases ht : t.value with
        | true => left; simp [ht]
        | false => right; exact ⟨t, rfl, ht, by simp [ht]⟩
    | cons c cs =>
      rw [hfl] at ih
      rw [shortOut]
      cases hb : env b with
      | none => left; rfl
      | some t =>
        cases ht : t.value with
        | true => left; simp [ht]
        | false => simpa [ht] using ih
  induction hn : sizeOf l using Nat.strong_induction_on generalizing l with
  | _ n ih =>
    match l, hn with
    | [], _ => left; rw [expandingDisjunction]; rfl
    | .atom k :: bs, hn =>
      by_cases hbs : bs = []
      · left; subst hbs; rw [expandingDisjunction, if_pos rfl]; rfl
      · refine step _ bs hbs (by simp [flat]) (by rw [expandingDisjunction, if_neg hbs]) ?_
        exact ih (sizeOf bs) (by rw [← hn]; simp) bs rfl
    | .inst f ts :: bs, hn =>
      by_cases hf : f = typeList
      · subst hf
        have he : expandingDisjunction no env (.inst typeList ts :: bs) =
            expandingDisjunction no env (ts ++ bs) := by
          rw [expandingDisjunction, if_pos rfl]
        have hfl : flats (.inst typeList ts :: bs) = flats (ts ++ bs) := by
          rw [flats, flat, if_pos rfl, flats_append]
        rw [he, hfl]
        refine ih (sizeOf (ts ++ bs)) ?_ _ rfl
        have := sizeOf_append ts bs
        rw [← hn]; simp; omega
      · by_cases hbs : bs = []
        · left; subst hbs
          rw [expandingDisjunction, if_neg hf, if_pos rfl, flats, flat, if_neg hf]; rfl
        · refine step _ bs hbs (by simp [flat, hf])
            (by rw [expandingDisjunction, if_neg hf, if_neg hbs]) ?_
          exact ih (sizeOf bs) (by rw [← hn]; simp) bs rfl

end WG.Meta
