import Verif.Spec.LazyOps
import Verif.Props.Lazy

/-!
# C24: which operations return unevaluated results
-/

namespace WG
open Spec

variable {ε : ℝ}

theorem unMode_nest {a b : Ty} (op : Un a b) : op.mode = .nest ↔ UnHolds op := by
  constructor
  · intro h
    cases op with
    | minus k => exact .minus fun e => by subst e; simp [Un.mode, VK.lazyMode] at h
    | invRot k => cases k <;> first | exact .transpose | simp [Un.mode] at h
    | _ => simp [Un.mode] at h
  · rintro (⟨h⟩ | _)
    · rename_i k
      cases k <;> first | rfl | exact absurd rfl h
    · rfl

theorem unMode_pass {a b : Ty} (op : Un a b) : op.mode = .pass ↔ IsCast op := by
  constructor
  · intro h
    cases op with
    | minus k => cases k <;> simp [Un.mode, VK.lazyMode] at h
    | invRot k => cases k <;> simp [Un.mode] at h
    | recast => exact .cast _
    | _ => simp [Un.mode] at h
  · rintro ⟨⟩
    rfl

theorem binMode_lazy {a b c : Ty} (op : Bin a b c) : (op.mode = .left ∨ op.mode = .right) ↔ BinHolds op := by
  constructor
  · intro h
    cases op with
    | scale k => exact .scale fun e => by subst e; simp [Bin.mode, VK.lazyMode] at h
    | scaleR k => exact .scaleR fun e => by subst e; simp [Bin.mode, VK.lazyMode] at h
    | scaleDiv k => exact .scaleDiv fun e => by subst e; simp [Bin.mode, VK.lazyMode] at h
    | _ => simp [Bin.mode] at h
  · rintro (⟨h⟩ | ⟨h⟩ | ⟨h⟩) <;> rename_i k <;> cases k <;> first | exact absurd rfl h | (simp [Bin.mode, VK.lazyMode])

/-- **C24.** An evaluator holds an unevaluated result exactly if the outermost operation, frame casts
disregarded, is the negative or a multiple of an object storing a vector, or the inverse of a rotation
matrix. -/
theorem c24_unevaluated {τ : (geoLib ε).Ty} (e : Expr (geoLib ε) τ) : Unevaluated (geoLazy ε) e ↔ HoldsOperands e := by
  constructor
  · intro h
    induction h with
    | nest h => exact .un ((unMode_nest _).1 h)
    | pass h _ ih => exact .cast ((unMode_pass _).1 h) ih
    | left h => exact .bin ((binMode_lazy _).1 (.inl h))
    | right h => exact .bin ((binMode_lazy _).1 (.inr h))
  · intro h
    induction h with
    | un h => exact .nest ((unMode_nest _).2 h)
    | cast h _ ih => exact .pass ((unMode_pass _).2 h) ih
    | bin h =>
      rcases (binMode_lazy _).2 h with h | h
      · exact .left h
      · exact .right h

theorem scalarOnly_evaluated {τ : Ty} {e : Expr (geoLib ε) τ} (h : ScalarOnly e) : ¬ HoldsOperands e := by
  induction h with
  | leaf => rintro ⟨⟩
  | @un a op e _ ih =>
    intro h
    cases h with
    | un h =>
      cases h with
      | minus h => exact h rfl
    | cast h he => exact ih he
  | @bin a op l r _ _ _ _ =>
    intro h
    cases h with
    | bin h =>
      cases h with
      | scale h => exact h rfl
      | scaleR h => exact h rfl
      | scaleDiv h => exact h rfl

theorem scalarOnly_reads {τ : Ty} {e : Expr (geoLib ε) τ} (h : ScalarOnly e) (t : Target (geoLib ε)) :
    ¬ Dangles (geoLazy ε) t e := by
  have no : ∀ {τ : Ty} {e : Expr (geoLib ε) τ}, ScalarOnly e → ¬ Unevaluated (geoLazy ε) e :=
    fun h hu => scalarOnly_evaluated h ((c24_unevaluated _).1 hu)
  induction h with
  | leaf => exact not_dangles_leaf _
  | @un a op e h ih =>
    intro hd
    rcases (dangles_un (L := geoLib ε) (geoLazy ε)).1 hd with hd | ⟨-, ⟨-, hu⟩ | ⟨-, hu⟩⟩
    · exact ih hd
    · exact no (ScalarOnly.un h) hu
    · exact no h hu
  | @bin a op l r hl hr il ir =>
    intro hd
    rcases (dangles_bin (L := geoLib ε) (geoLazy ε)).1 hd with
      (hd | ⟨-, ⟨-, hu⟩ | ⟨-, hu⟩ | ⟨-, hu⟩⟩) | (hd | ⟨-, ⟨-, hu⟩ | ⟨-, hu⟩ | ⟨-, hu⟩⟩)
    · exact il hd
    · exact no (ScalarOnly.bin hl hr) hu
    · exact no hl hu
    · exact no hr hu
    · exact ir hd
    · exact no (ScalarOnly.bin hl hr) hu
    · exact no hl hu
    · exact no hr hu

/-- **C24.** Compounds of scalar expressions never read a destroyed object, whatever the operations. -/
theorem c24_scalars (s : Store (geoLib ε)) (t : Target (geoLib ε)) (c : Compound (geoLib ε))
    (hc : ∀ e ∈ c, ScalarOnly e.2) : c.jacobianRun (geoLazy ε) s t ≠ .ub := by
  have hz : ∀ e ∈ c, ¬ Dangles (geoLazy ε) t e.2 := fun e he => scalarOnly_reads (hc e he) t
  rcases jacobianRun_eq (geoLazy ε) s t c with ⟨m, -, -, h⟩ | ⟨-, h⟩
  · rw [h hz]
    nofun
  · rw [h]
    nofun

/-- `(-x, x)` of a scalar: accepted, and defined. -/
example (s : Store (geoLib ε)) : ∃ m, Compound.jacobianRun (geoLazy ε) s ⟨1, 0, .vec .scalar⟩
    [⟨.vec .scalar, Expr.un (L := geoLib ε) 7 (.minus .scalar) (gleaf ε 1 0 (.vec .scalar))⟩,
      ⟨.vec .scalar, gleaf ε 1 0 (.vec .scalar)⟩] = .ok m := by
  refine c24_static_accepted (geoLazy ε) s ⟨1, 0, .vec .scalar⟩ _
    (by simp [Compound.uniqueList, concatMany, Expr.uniqueList, concatIfUnique, tfind, gleaf])
    (by simp [Expr.noProxy, gleaf]) ⟨_, [], (List.append_nil _).symm, by simp [types, objects, gleaf], by simp⟩ ?_
  intro e he
  simp only [List.mem_cons, List.not_mem_nil, or_false] at he
  rcases he with rfl | rfl
  · exact scalarOnly_reads (.un (.leaf _ _)) _
  · exact scalarOnly_reads (.leaf _ _) _

/-- Of a translation the negative is held unevaluated. -/
example : Unevaluated (geoLazy ε) (Expr.un (L := geoLib ε) 7 (.minus .trans) (gleaf ε 1 0 (.vec .trans))) :=
  (c24_unevaluated _).2 (.un (.minus (by decide)))

end WG
