import Verif.Spec.MapLeaf
import Verif.Lemmas.Assign

/-!
# Coefficient-wise copies between overlapping storage
-/

namespace WG
open Matrix Spec

variable {ε : ℝ} {κ : Type} [DecidableEq κ]

theorem ofs_inj (τ : Ty) : Function.Injective τ.ofs := by
  cases τ with
  | vec k => cases k <;> decide
  | point => decide
  | rot k => cases k <;> decide
  | rigid k => cases k <;> decide

theorem runActs_append (src dst : κ → ℕ) : (l m : List (Act κ)) → (s : (κ → ℝ) × Heap) →
    runActs src dst (l ++ m) s = runActs src dst m (runActs src dst l s)
  | [], _, _ => rfl
  | x :: l, m, s => runActs_append src dst l m (x.run src dst s)

/-- A register keeps its content as long as it is not loaded. -/
theorem runActs_reg (src dst : κ → ℕ) (c : κ) : (l : List (Act κ)) → Act.load c ∉ l →
    (s : (κ → ℝ) × Heap) → (runActs src dst l s).1 c = s.1 c
  | [], _, _ => rfl
  | .load d :: l, h, (r, m) => by
    have hd : c ≠ d := fun e => h (e ▸ List.mem_cons_self)
    refine (runActs_reg src dst c l (fun hm => h (List.mem_cons_of_mem _ hm)) _).trans ?_
    exact Function.update_of_ne hd _ _
  | .store d :: l, h, (r, m) =>
    runActs_reg src dst c l (fun hm => h (List.mem_cons_of_mem _ hm)) _

/-- A cell keeps its content as long as nothing is stored in it. -/
theorem runActs_cell (src dst : κ → ℕ) (k : ℕ) : (l : List (Act κ)) →
    (∀ c, Act.store c ∈ l → dst c ≠ k) → (s : (κ → ℝ) × Heap) → (runActs src dst l s).2 k = s.2 k
  | [], _, _ => rfl
  | .load d :: l, h, (r, m) =>
    runActs_cell src dst k l (fun c hm => h c (List.mem_cons_of_mem _ hm)) _
  | .store d :: l, h, (r, m) => by
    refine (runActs_cell src dst k l (fun c hm => h c (List.mem_cons_of_mem _ hm)) _).trans ?_
    exact Function.update_of_ne (Ne.symm (h d List.mem_cons_self)) _ _

/-- The copy of a coefficient, from the middle of a schedule on: what is loaded is what is finally
found in the destination. -/
theorem runActs_copy {src dst : κ → ℕ} (hd : Function.Injective dst) {c : κ}
    {l₁ l₂ l₃ : List (Act κ)} (h2 : Act.load c ∉ l₂) (h3 : Act.store c ∉ l₃)
    (s : (κ → ℝ) × Heap) :
    (runActs src dst (l₁ ++ .load c :: (l₂ ++ .store c :: l₃)) s).2 (dst c) =
      (runActs src dst l₁ s).2 (src c) := by
  rw [runActs_append]
  change (runActs src dst (l₂ ++ .store c :: l₃) _).2 _ = _
  rw [runActs_append]
  change (runActs src dst l₃ _).2 _ = _
  rw [runActs_cell src dst (dst c) l₃ (fun d hm he => h3 (hd he ▸ hm))]
  refine (Function.update_self (dst c) _ _).trans ?_
  rw [runActs_reg src dst c l₂ h2]
  exact Function.update_self c _ _

theorem notMem_append3 {α : Type} {a : α} {l₁ l₂ l₃ : List α} (h : a ∉ l₁ ++ l₂ ++ l₃) :
    a ∉ l₁ ∧ a ∉ l₂ ∧ a ∉ l₃ := by
  simp only [List.mem_append, not_or] at h
  exact ⟨h.1.1, h.1.2, h.2⟩

/-- Whatever the schedule, a copy is right if no store hits a cell that another coefficient of the
source is read from. -/
theorem sched_copies {src dst : κ → ℕ} (hd : Function.Injective dst) {l : List (Act κ)} (hl : Sched l)
    (hs : ∀ c d, dst c = src d → c = d) (s : (κ → ℝ) × Heap) (c : κ) :
    (runActs src dst l s).2 (dst c) = s.2 (src c) := by
  obtain ⟨l₁, l₂, l₃, rfl, h1, h2⟩ := hl c
  obtain ⟨-, h12, -⟩ := notMem_append3 h1
  obtain ⟨h21, -, h23⟩ := notMem_append3 h2
  rw [runActs_copy hd h12 h23]
  exact runActs_cell src dst (src c) l₁ (fun d hm he => h21 (hs d c he ▸ hm)) s

theorem sched_keeps (src dst : κ → ℕ) (l : List (Act κ)) (s : (κ → ℝ) × Heap) (k : ℕ)
    (hk : ∀ c, dst c ≠ k) : (runActs src dst l s).2 k = s.2 k :=
  runActs_cell src dst k l (fun c _ => hk c) s

theorem load_scalarLoop {cs : List κ} {c : κ} : Act.load c ∈ scalarLoop cs ↔ c ∈ cs := by
  simp [scalarLoop]

theorem store_scalarLoop {cs : List κ} {c : κ} : Act.store c ∈ scalarLoop cs ↔ c ∈ cs := by
  simp [scalarLoop]

theorem scalarLoop_append (cs ds : List κ) : scalarLoop (cs ++ ds) = scalarLoop cs ++ scalarLoop ds :=
  List.flatMap_append

/-- The scalar loop over all coefficients, in any order, is a schedule. -/
theorem sched_scalarLoop {cs : List κ} (hn : cs.Nodup) (hc : ∀ c, c ∈ cs) : Sched (scalarLoop cs) := by
  intro c
  obtain ⟨l, m, rfl⟩ := List.append_of_mem (hc c)
  have h := List.nodup_middle.mp hn
  have hh : c ∉ l ++ m := (List.nodup_cons.mp h).1
  simp only [List.mem_append, not_or] at hh
  refine ⟨scalarLoop l, [], scalarLoop m, scalarLoop_append _ _, ?_, ?_⟩
  · simp only [List.append_nil, List.mem_append, load_scalarLoop]
    tauto
  · simp only [List.append_nil, List.mem_append, store_scalarLoop]
    tauto

theorem storeFrom_keeps (dst : κ → ℕ) (val : κ → ℝ) (k : ℕ) : (cs : List κ) → (h : Heap) →
    (∀ c ∈ cs, dst c ≠ k) → storeFrom dst val cs h k = h k
  | [], _, _ => rfl
  | c :: cs, h, hk => by
    refine (storeFrom_keeps dst val k cs _ fun d hd => hk d (List.mem_cons_of_mem _ hd)).trans ?_
    exact Function.update_of_ne (Ne.symm (hk c List.mem_cons_self)) _ _

theorem storeFrom_held {dst : κ → ℕ} (hd : Function.Injective dst) (val : κ → ℝ) (c : κ) :
    (cs : List κ) → (h : Heap) → c ∈ cs → storeFrom dst val cs h (dst c) = val c
  | d :: cs, h, hc => by
    by_cases hm : c ∈ cs
    · exact storeFrom_held hd val c cs _ hm
    · have hcd : c = d := (List.mem_cons.mp hc).resolve_right hm
      subst hcd
      refine (storeFrom_keeps dst val (dst c) cs _ fun e he hh => hm (hd hh ▸ he)).trans ?_
      exact Function.update_self _ _ _

theorem cellOf_inj (Γ : Objects) (x : ℕ) (τ : Ty) : Function.Injective (cellOf Γ x τ) := fun _ _ h =>
  ofs_inj τ (Nat.add_left_cancel h)

theorem get_view (Γ : Objects) (h : Heap) (x : ℕ) (τ : Ty) (c : τ.Coef) :
    τ.get (view Γ h x τ) c = h (cellOf Γ x τ c) := by
  unfold view
  rw [get_ofFun]
  rfl

theorem Spec.CellsHold.view_eq {Γ : Objects} {x : ℕ} {τ : Ty} {v : τ.Val} {h h' : Heap}
    (H : CellsHold Γ x τ v h h') : view Γ h' x τ = v :=
  get_inj fun c => (get_view Γ h' x τ c).trans (H.held c)

theorem Spec.CellsHold.view_apart {Γ : Objects} {x : ℕ} {τ : Ty} {v : τ.Val} {h h' : Heap}
    (H : CellsHold Γ x τ v h h') {y : ℕ} {σ : Ty} (hy : NoSharedCell Γ y σ x τ) :
    view Γ h' y σ = view Γ h y σ := by
  refine get_inj fun d => ?_
  rw [get_view, get_view]
  exact H.kept _ fun c hc => hy d c hc.symm

theorem sameClass_some {Γ : Objects} {x : ℕ} {e : SExpr} {b : ℕ} (h : sameClass Γ x e = some b) :
    (∃ c, e = .leaf b c (Γ x).ty) ∧ (Γ b).sto = (Γ x).sto := by
  obtain ⟨b', hb, h⟩ := Option.bind_eq_some_iff.mp h
  split_ifs at h with hs
  cases h
  exact ⟨isLeafOf_some hb, hs⟩

/-- The value of an expression depends only on what its objects hold. -/
theorem eval_congr {s s' : Store (geoLib ε)} : {τ : Ty} → (e : Expr (geoLib ε) τ) →
    (∀ o ∈ objects e, s o.addr o.ty = s' o.addr o.ty) → e.eval s = e.eval s'
  | _, .leaf a c τ, h => congrArg some (h ⟨a, c, τ⟩ (List.mem_singleton.mpr rfl))
  | _, .un a op e, h => by
    change (e.eval s).bind _ = (e.eval s').bind _
    rw [eval_congr e h]
  | _, .bin a op l r, h => by
    change (l.eval s).bind (fun x => (r.eval s).bind _) = (l.eval s').bind (fun x => (r.eval s').bind _)
    rw [eval_congr l fun o ho => h o (List.mem_append_left _ ho),
      eval_congr r fun o ho => h o (List.mem_append_right _ ho)]
  | _, .proxy a e, h => eval_congr e h

end WG
