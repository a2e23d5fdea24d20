import Verif.Model.PrintName
import Mathlib.Tactic.Linarith
import Mathlib.Tactic.NormNum

/-!
# C75: names of expressions, for debugging
-/

namespace WG.Debug

/-! ### Specification -/

/-- A sequence of letters, digits and underscores. -/
def Word (w : List Char) : Prop := ∀ c ∈ w, c.isAlphanum = true ∨ c = '_'
/-- `q₁::q₂::…::qₖ::name`. -/
def qualified (qs : List (List Char)) (name : List Char) : List Char :=
  (qs.map (· ++ [':', ':'])).flatten ++ name
/-- One line of text. -/
def OneLine (s : List Char) : Prop := '\n' ∉ s ∧ '\r' ∉ s
/-- No qualifier at the front. -/
def Unqualified (s : List Char) : Prop := ∀ w t, Word w → s ≠ w ++ ':' :: ':' :: t

/-! ### The matcher -/

/-- A sequence of characters of the class of the regular expression. -/
def WordM (w : List Char) : Prop := ∀ c ∈ w, isWord c = true

theorem isWord_iff (c : Char) : isWord c = true ↔ c.isAlphanum = true ∨ c = '_' := by
  simp only [isWord, Char.isAlphanum, Char.isAlpha, Char.isUpper, Char.isLower, Char.isDigit, Bool.or_eq_true,
    Bool.and_eq_true, decide_eq_true_eq, beq_iff_eq, ge_iff_le]
  exact Iff.rfl

theorem word_iff {w : List Char} : Word w ↔ WordM w := forall₂_congr fun c _ => (isWord_iff c).symm

theorem run_word {k : Cont} (g : Option (List Char)) :
    ∀ (w s : List Char) (n : ℕ), WordM w → w.length ≤ n →
      (∀ c t g, isWord c = true → k (c :: t) g = none) → (∀ c t, s = c :: t → isWord c = false) →
      starN (Rx.chr isWord).run k n (w ++ s) g = k s g
  | [], s, n, _, _, _, hs => by
    cases n with
    | zero => rfl
    | succ n =>
      cases s with
      | nil => simp [starN, Rx.run]
      | cons c t => simp [starN, Rx.run, hs c t rfl]
  | c :: w, s, 0, _, hn, _, _ => by simp at hn
  | c :: w, s, n + 1, hw, hn, hk, hs => by
    have hc : isWord c = true := hw c (by simp)
    have ih := run_word g w s n (fun d hd => hw d (by simp [hd])) (by simpa using hn) hk hs
    rw [List.cons_append, starN, hk c (w ++ s) g hc, Option.or_none, Rx.run]
    simp only [hc, if_true, List.length_cons, Nat.lt_succ_self]
    exact ih

theorem drop_word {w s : List Char} (hw : WordM w) (hs : ∀ c t, s = c :: t → isWord c = false) :
    (w ++ s).dropWhile isWord = s := by
  rw [List.dropWhile_append_of_pos hw]
  cases s with
  | nil => rfl
  | cons c t => simp [hs c t rfl]

/-- Every text is a word followed by nothing or by another character. -/
theorem split_word (s : List Char) :
    ∃ w t, s = w ++ t ∧ WordM w ∧ ∀ c t', t = c :: t' → isWord c = false := by
  refine ⟨s.takeWhile isWord, s.dropWhile isWord, (List.takeWhile_append_dropWhile).symm,
    fun c hc => (List.all_takeWhile (p := isWord) (l := s) ▸ List.all_eq_true).1 rfl c hc, fun c t' h => ?_⟩
  have := List.head?_dropWhile_not isWord s
  rw [h] at this
  simpa using this

/-- `::`. -/
def rxColons : Rx := .seq (.chr (· == ':')) (.chr (· == ':'))

theorem colons_word (k : Cont) (c : Char) (t : List Char) (g : Option (List Char)) (hc : isWord c = true) :
    rxColons.run k (c :: t) g = none := by
  have : (c == ':') = false := by
    rw [beq_eq_false_iff_ne]
    rintro rfl
    exact absurd hc (by decide)
  simp [rxColons, Rx.run, this]

theorem run_qualifier (k : Cont) {w : List Char} (hw : WordM w) (t : List Char) (g : Option (List Char)) :
    (Rx.seq (.star (.chr isWord)) rxColons).run k (w ++ ':' :: ':' :: t) g = k t g := by
  have h := run_word (k := rxColons.run k) g w (':' :: ':' :: t) (w ++ ':' :: ':' :: t).length hw (by simp)
    (colons_word k) (by rintro c t' h; cases h; decide)
  exact h.trans (by simp [rxColons, Rx.run])

theorem run_unqualified (k : Cont) {s : List Char} (hs : Unqualified s) (g : Option (List Char)) :
    (Rx.seq (.star (.chr isWord)) rxColons).run k s g = none := by
  obtain ⟨w, t, rfl, hw, ht⟩ := split_word s
  have h := run_word (k := rxColons.run k) g w t (w ++ t).length hw (by simp) (colons_word k) ht
  refine h.trans ?_
  match t, hs w with
  | [], _ => rfl
  | [c], _ => by_cases h : c = ':' <;> simp [rxColons, Rx.run, h]
  | c :: d :: t, hs =>
    by_cases h1 : c = ':'
    · by_cases h2 : d = ':'
      · exact absurd (by rw [h1, h2]) (hs t (word_iff.2 hw))
      · simp [rxColons, Rx.run, h2]
    · simp [rxColons, Rx.run, h1]

theorem run_qualifiers {k : Cont} {rest : List Char} (hr : Unqualified rest) {g : Option (List Char)}
    {y : List Char} (hk : k rest g = some y) : ∀ (qs : List (List Char)) (n : ℕ), (∀ q ∈ qs, WordM q) →
      qs.length ≤ n → starN (Rx.seq (.star (.chr isWord)) rxColons).run k n (qualified qs rest) g = some y
  | [], n, _, _ => by
    cases n with
    | zero => exact hk
    | succ n =>
      show (((Rx.seq (.star (.chr isWord)) rxColons).run _ rest g).or (k rest g)) = some y
      rw [run_unqualified _ hr, Option.none_or, hk]
  | q :: qs, 0, _, hn => by simp at hn
  | q :: qs, n + 1, hq, hn => by
    have e : qualified (q :: qs) rest = q ++ ':' :: ':' :: qualified qs rest := by simp [qualified]
    have ih := run_qualifiers hr hk qs n (fun q h => hq q (by simp [h])) (by simpa using hn)
    rw [e]
    show (((Rx.seq (.star (.chr isWord)) rxColons).run _ (q ++ ':' :: ':' :: qualified qs rest) g).or _) = some y
    rw [run_qualifier _ (hq q (by simp)), if_pos (by simp; omega), ih, Option.some_or]

theorem length_qualified (rest : List Char) : ∀ qs : List (List Char), qs.length ≤ (qualified qs rest).length
  | [] => by simp
  | q :: qs => by
    have e : qualified (q :: qs) rest = q ++ ':' :: ':' :: qualified qs rest := by simp [qualified]
    have := length_qualified rest qs
    rw [e]
    simp
    omega

theorem search_of_run {r : Rx} {s y : List Char} (h : r.run (fun _ g => some (g.getD [])) s none = some y) :
    r.search s = some y := by
  cases s with
  | nil => exact h
  | cons c s => rw [Rx.search, h, Option.some_or]

theorem unqualified_of {w s : List Char} (hw : WordM w) (hs : ∀ c t, s = c :: t → isWord c = false)
    (hc : ∀ t, s ≠ ':' :: ':' :: t) : Unqualified (w ++ s) := by
  intro w' t hw' h
  have := congrArg (List.dropWhile isWord) h
  rw [drop_word hw hs, drop_word (word_iff.1 hw') (by rintro c t' h; cases h; decide)] at this
  exact hc t this

theorem run_dot {k : Cont} {g : Option (List Char)} {y : List Char} (hk : k [] g = some y) :
    ∀ (s : List Char) (n : ℕ), (∀ c ∈ s, isDot c = true) → s.length ≤ n →
      starN (Rx.chr isDot).run k n s g = some y
  | [], 0, _, _ => hk
  | [], n + 1, _, _ => by simp [starN, Rx.run, hk]
  | c :: s, 0, _, hn => by simp at hn
  | c :: s, n + 1, hs, hn => by
    have ih := run_dot hk s n (fun d hd => hs d (by simp [hd])) (by simpa using hn)
    rw [starN, Rx.run]
    simp only [hs c (by simp), if_true, List.length_cons, Nat.lt_succ_self]
    rw [ih, Option.some_or]

/-- A continuation that needs a character the text does not contain. -/
theorem run_none {x : Char} : ∀ (r : Rx) (k : Cont), (∀ s g, x ∉ s → k s g = none) →
    ∀ s g, x ∉ s → r.run k s g = none
  | .chr p, k, hk, [], g, _ => rfl
  | .chr p, k, hk, c :: s, g, h => by
    simp only [Rx.run]
    split_ifs
    · exact hk s g fun h' => h (by simp [h'])
    · rfl
  | .seq a b, k, hk, s, g, h => run_none a _ (run_none b k hk) s g h
  | .star a, k, hk, s, g, h => by
    have : ∀ n s g, x ∉ s → starN a.run k n s g = none := by
      intro n
      induction n with
      | zero => exact hk
      | succ n ih =>
        intro s g h
        rw [starN, hk s g h, Option.or_none]
        refine run_none a _ (fun s' g' h' => ?_) s g h
        split_ifs
        · exact ih s' g' h'
        · rfl
    exact this _ s g h
  | .grp a, k, hk, s, g, h => run_none a _ (fun s' _ h' => hk s' _ h') s none h

theorem search_none {x : Char} {r : Rx} (hr : ∀ s g, x ∉ s → r.run (fun _ g => some (g.getD [])) s g = none) :
    ∀ s, x ∉ s → r.search s = none
  | [], h => hr [] none h
  | c :: s, h => by
    rw [Rx.search, hr (c :: s) none h, Option.none_or, search_none hr s fun h' => h (by simp [h'])]

/-! ### The properties -/

/-- **C75.** The class template `q₁::…::qₖ::name<args>` is called `name`, whatever the arguments are. -/
theorem c75_template {qs : List (List Char)} (hq : ∀ q ∈ qs, Word q) {name : List Char} (hn : Word name)
    (args : List Char) : getTemplateName (qualified qs (name ++ '<' :: args)) false = name := by
  replace hq : ∀ q ∈ qs, WordM q := fun q h => word_iff.1 (hq q h)
  replace hn := word_iff.1 hn
  have hr : Unqualified (name ++ '<' :: args) :=
    unqualified_of hn (by rintro c t h; cases h; decide) (by rintro t h; cases h)
  refine congrArg (Option.getD · _) (search_of_run (y := name) ?_)
  refine run_qualifiers (k := (Rx.seq (.grp (.star (.chr isWord))) (.chr (· == '<'))).run _) hr ?_ qs _ hq
    (length_qualified _ qs)
  refine (run_word none name ('<' :: args) _ hn (by simp) ?_ (by rintro c t h; cases h; decide)).trans ?_
  · intro c t g hc
    have : (c == '<') = false := by
      rw [beq_eq_false_iff_ne]
      rintro rfl
      exact absurd hc (by decide)
    simp [Rx.run, this]
  · simp [Rx.run]

/-- **C75.** With the template parameters: everything after the qualifiers. -/
theorem c75_parameters {qs : List (List Char)} (hq : ∀ q ∈ qs, Word q) {rest : List Char}
    (hr : Unqualified rest) (hl : OneLine rest) : getTemplateName (qualified qs rest) true = rest := by
  replace hq : ∀ q ∈ qs, WordM q := fun q h => word_iff.1 (hq q h)
  refine congrArg (Option.getD · _) (search_of_run (y := rest) ?_)
  refine run_qualifiers (k := (Rx.grp (.star (.chr isDot))).run _) hr ?_ qs _ hq (length_qualified _ qs)
  refine run_dot ?_ rest _ (fun c hc => ?_) le_rfl
  · simp
  · have h1 : c ≠ '\n' := fun h => hl.1 (h ▸ hc)
    have h2 : c ≠ '\r' := fun h => hl.2 (h ▸ hc)
    simp [isDot, h1, h2]

/-- **C75.** The name of a class that is not a template keeps its qualifiers, unless it is that of a leaf. -/
theorem c75_plain {full : List Char} (h : '<' ∉ full) : getTemplateName full false = full := by
  refine congrArg (Option.getD · full) (search_none (x := '<') (fun s g hs => ?_) full h)
  refine run_none _ _ (run_none (.grp (.star (.chr isWord))) ((Rx.chr (· == '<')).run _) fun s g hs => ?_) s g hs
  cases s with
  | nil => rfl
  | cons c s =>
    have : (c == '<') = false := by
      rw [beq_eq_false_iff_ne]
      rintro rfl
      exact hs (by simp)
    simp [Rx.run, this]

/-- **C75.** The name of an expression: of a leaf with the template parameters, of an operation without, of a
conversion with the name of the target. -/
theorem c75_expression {qs : List (List Char)} (hq : ∀ q ∈ qs, Word q) {name : List Char} (hn : Word name)
    {args : List Char} (hl : OneLine args) :
    getExpressionTypeName (.other (qualified qs (name ++ '<' :: args)) false) = name ∧
    getExpressionTypeName (.other (qualified qs (name ++ '<' :: args)) true) = name ++ '<' :: args ∧
    getExpressionTypeName (.conversion (qualified qs (name ++ '<' :: args))) =
      "Conversion to ".toList ++ (name ++ '<' :: args) := by
  have hr : Unqualified (name ++ '<' :: args) :=
    unqualified_of (word_iff.1 hn) (by rintro c t h; cases h; decide) (by rintro t h; cases h)
  have hw : ∀ c, isWord c = false → c ∉ name := fun c hc h => by simp [word_iff.1 hn c h] at hc
  have h2 : OneLine (name ++ '<' :: args) := by
    refine ⟨?_, ?_⟩ <;> simp [hl.1, hl.2, hw '\n' (by decide), hw '\r' (by decide)]
  exact ⟨c75_template hq hn args, c75_parameters hq hr h2,
    congrArg ("Conversion to ".toList ++ ·) (c75_parameters hq hr h2)⟩

/-- **C75.** A line of the printed tree: two blanks per level, a dash and the name. -/
theorem c75_line (n : Node) {depth : ℕ} (h : depth < 2 ^ 30) :
    printNode n depth =
      .text (List.replicate (2 * depth) ' ' ++ " - ".toList ++ getExpressionTypeName n ++ ['\n']) := by
  have h1 : ¬((2 * (depth : ℤ)) < -2 ^ 31 ∨ 2 ^ 31 ≤ 2 * (depth : ℤ)) := by omega
  have h2 : (2 * (depth : ℤ)) % 2 ^ 64 = 2 * depth := by omega
  have h3 : (2 * (depth : ℤ)).toNat = 2 * depth := by omega
  rw [printNode, if_neg h1, h2, if_neg (by omega), h3]

/-- **C75.** A negative depth is not accepted: an exception, or undefined behaviour; as for depths of `2^30`
and more. -/
theorem c75_bad_depth (n : Node) (depth : ℤ) :
    (printNode n depth = .lengthError ↔ -2 ^ 30 ≤ depth ∧ depth < 0) ∧
    (printNode n depth = .undefined ↔ depth < -2 ^ 30 ∨ 2 ^ 30 ≤ depth) := by
  unfold printNode
  by_cases h1 : 2 * depth < -2 ^ 31 ∨ 2 ^ 31 ≤ 2 * depth
  · rw [if_pos h1]
    simp only [reduceCtorEq, false_iff, true_iff]
    omega
  · rw [if_neg h1]
    by_cases h2 : (2 ^ 63 : ℤ) ≤ (2 * depth) % 2 ^ 64
    · rw [if_pos h2]
      simp only [reduceCtorEq, false_iff, true_iff]
      omega
    · rw [if_neg h2]
      simp only [reduceCtorEq, false_iff]
      omega

/-- **C75.** The type string: `const` without a blank, the name without qualifiers, the reference. -/
theorem c75_type_string {qs : List (List Char)} (hq : ∀ q ∈ qs, Word q) {rest : List Char}
    (hr : Unqualified rest) (hl : OneLine rest) (c : Bool) :
    getTypeString ⟨qualified qs rest, c, .none⟩ = (if c then "const".toList else []) ++ rest ∧
    getTypeString ⟨qualified qs rest, c, .lvalue⟩ = rest ++ ['&'] ∧
    getTypeString ⟨qualified qs rest, c, .rvalue⟩ = rest ++ ['&', '&'] := by
  have h := c75_parameters hq hr hl
  refine ⟨?_, ?_, ?_⟩ <;> simp [getTypeString, h, CType.isConst]

/-- **C75.** A reference to const is printed like a reference to non-const. -/
theorem c75_const_lost (n : List Char) {r : Ref} (h : r ≠ .none) :
    getTypeString ⟨n, true, r⟩ = getTypeString ⟨n, false, r⟩ := by
  cases r
  · exact absurd rfl h
  all_goals rfl

/-- **C75.** The const version of a class `X` is printed like the class `constX`. -/
theorem c75_const_glued {name : List Char} (hn : Word name) :
    getTypeString ⟨name, true, .none⟩ = getTypeString ⟨"const".toList ++ name, false, .none⟩ := by
  have hw : ∀ {w}, Word w → ∀ c, isWord c = false → c ∉ w := fun h c hc h' => by simp [word_iff.1 h c h'] at hc
  have key : ∀ {w}, Word w → getTemplateName w true = w := fun h =>
    c75_parameters (qs := []) (by simp) (by simpa using unqualified_of (word_iff.1 h) (s := []) (by simp) (by simp))
      ⟨hw h _ (by decide), hw h _ (by decide)⟩
  have hc : Word ("const".toList ++ name) := by
    intro c h
    rcases List.mem_append.1 h with h | h
    · exact (by decide : ∀ c ∈ "const".toList, c.isAlphanum = true ∨ c = '_') c h
    · exact hn c h
  simp only [getTypeString, key hn, key hc, CType.isConst]
  simp

/-- Non-vacuity: an operation and a leaf of the library, and a node below the root. -/
example : getExpressionTypeName (.other "wave::Compose<wave::MatrixRotation<Eigen::Matrix<double, 3, 3> > >".toList false) =
      "Compose".toList ∧
    getExpressionTypeName (.other "wave::MatrixRotation<Eigen::Matrix<double, 3, 3> >".toList true) =
      "MatrixRotation<Eigen::Matrix<double, 3, 3> >".toList ∧
    printNode (.conversion "wave::MatrixRotation<M>".toList) 1 =
      .text "   - Conversion to MatrixRotation<M>\n".toList := by
  have h1 := c75_expression (qs := ["wave".toList]) (by simp [Word]) (name := "Compose".toList)
    (by simp [Word]) (args := "wave::MatrixRotation<Eigen::Matrix<double, 3, 3> > >".toList) (by simp [OneLine])
  have h2 := c75_expression (qs := ["wave".toList]) (by simp [Word]) (name := "MatrixRotation".toList)
    (by simp [Word]) (args := "Eigen::Matrix<double, 3, 3> >".toList) (by simp [OneLine])
  have h3 := c75_expression (qs := ["wave".toList]) (by simp [Word]) (name := "MatrixRotation".toList)
    (by simp [Word]) (args := "M>".toList) (by simp [OneLine])
  refine ⟨h1.1, h2.2.1, ?_⟩
  refine (c75_line _ (depth := 1) (by norm_num)).trans ?_
  exact congrArg (fun n => Printed.text (List.replicate 2 ' ' ++ " - ".toList ++ n ++ ['\n'])) h3.2.2

end WG.Debug
