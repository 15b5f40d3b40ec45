import Verif.Lemmas.Execution

/-!
# C60: `if`, `while`, `break`, `return` and assignments keep their meaning

Programs without `for`, for which property C59 holds in full.
-/

namespace Marco.Props
open Marco.Stmts Marco.Spec

/-- The lowering of a program without `for` succeeds exactly if its names are in scope and it assigns no iteration
variable, and then the operations end in a state, by reaching the end, a `break` or a `return`, exactly if the program
does. -/
theorem C60_statements (Γ : Scope) {k : Kind} (s : Src k) (hl : noLoops s = true) :
    ((∃ t, lower Γ s = .ok t) ↔ inScope Γ s = true) ∧
    ∀ t, lower Γ s = .ok t → ∀ ρ, (∀ x, x ∈ Γ.inds ↔ (ρ x).isSome) → ∀ σ o τ,
      (Exec ρ (.src s) σ o τ ↔ IrExec ρ (.st t) σ o τ) := by
  have h1 : ∀ t, lower Γ s = .ok t → inScope Γ s = true := fun t h => inScope_of_ok s Γ hl t h
  have h2 := fun h => lower_iff s Γ h (simpleLoops_of_noLoops s hl)
  refine ⟨⟨fun ⟨t, h⟩ => h1 t h, fun h => ⟨_, (h2 h).choose_spec.1⟩⟩, fun t h => ?_⟩
  obtain ⟨t', ht', hiff⟩ := h2 (h1 t h)
  cases h.symm.trans ht'
  exact hiff

/-- Outside of loops there is no undefined behaviour: a name that is not declared is reported. -/
theorem C60_reported (vars : List String) {k : Kind} (s : Src k) (hl : noLoops s = true)
    (hs : inScope ⟨[], vars⟩ s = false) : lower ⟨[], vars⟩ s = .error :=
  error_of_noLoops s vars hl hs

/-- `while x loop x := x - 1; if x = y then break; elseif y then return; else y := y + 1; end if; end while;` -/
def countDown : Src .block :=
  .cons (.whiles (.var "x") (.cons (.assign "x" (.op (· - ·) (.var "x") (.const 1)))
    (.cons (.ifs (.op (fun a b => if a = b then 1 else 0) (.var "x") (.var "y")) (.cons .brk .nil)
      (.elseIf (.var "y") (.cons .ret .nil)
        (.els (.cons (.assign "y" (.op (· + ·) (.var "y") (.const 1))) .nil)))) .nil))) .nil

example : noLoops countDown = true ∧ inScope ⟨[], ["x", "y"]⟩ countDown = true := by decide

/-- It starts with 5 and 0, and returns with 3 and 1. -/
example : ∃ τ, Exec (fun _ => none) (.src countDown) (fun x => if x = "x" then 5 else 0) .ret τ ∧
    τ "x" = 3 ∧ τ "y" = 1 :=
  ⟨_, .stop (by decide) (.whileNext (by decide) (.cons .assign (.cons (.ifFalse (by decide)
    (.elseIfFalse (by decide) (.els (.cons .assign .nil)))) .nil))
    (.whileRet (by decide) (.cons .assign (.stop (by decide) (.ifFalse (by decide)
      (.elseIfTrue (by decide) (.stop (by decide) .ret))))))), rfl, rfl⟩

/-- A name that is not declared. -/
example : noLoops (.cons (.assign "z" (.const 1)) .nil) = true ∧
    inScope ⟨[], ["x", "y"]⟩ (.cons (.assign "z" (.const 1)) .nil) = false := by decide

end Marco.Props
