import Verif.Lemmas.Execution

/-!
# C59: the operations created for an algorithm do what its statements say

The claim covers every statement of the model: assignments, `if`, `while`, `for`, `break` and `return`. It fails for
`for` statements, in three ways.
-/

namespace Marco.Props
open Marco.Stmts Marco.Spec

/-- The full property: the lowering of a program whose names are in scope succeeds, and the operations end in a state
exactly if the program does. -/
def C59_full : Prop :=
  ∀ (Γ : Scope) (s : Src .block), inScope Γ s = true →
    ∃ t, lower Γ s = .ok t ∧ ∀ ρ, (∀ x, x ∈ Γ.inds ↔ (ρ x).isSome) → ∀ σ o τ,
      Exec ρ (.src s) σ o τ ↔ IrExec ρ (.st t) σ o τ

/-- The scope of the examples: two variables and no iteration variable. -/
def twoVars : Scope := { inds := [], vars := ["n", "x"] }

/-- `x := x + e` -/
def addTo (x : String) (e : Ex) : Src .block := .cons (.assign x (.op (· + ·) (.var x) e)) .nil

/-- `for i in 1:2:5 loop x := x + i; end for;` -/
def oddSum : Src .block :=
  .cons (.fors [⟨"i", .const 1, .const 2, some (.const 5)⟩] (addTo "x" (.var "i"))) .nil

/-- `for i in 1:2, j in 1:3 loop x := x + 1; end for;` -/
def pairs : Src .block :=
  .cons (.fors [⟨"i", .const 1, .const 2, none⟩, ⟨"j", .const 1, .const 3, none⟩] (addTo "x" (.const 1))) .nil

/-- `for i in 1:2, j in 1:3 loop x := x + i * j; end for;` -/
def products : Src .block :=
  .cons (.fors [⟨"i", .const 1, .const 2, none⟩, ⟨"j", .const 1, .const 3, none⟩]
    (addTo "x" (.op (· * ·) (.var "i") (.var "j")))) .nil

/-- `for i in 1:n loop n := n - 1; end for;` -/
def shrink : Src .block :=
  .cons (.fors [⟨"i", .const 1, .var "n", none⟩]
    (.cons (.assign "n" (.op (· - ·) (.var "n") (.const 1))) .nil)) .nil

/-- A program whose operations give a variable another value. -/
theorem C59_differs {s : Src .block} {t : IrSt} {x : String} {σ : Store} {τ τ' : Store} {o o' : Ending}
    (hs : inScope twoVars s = true) (ht : lower twoVars s = .ok t)
    (h : Exec (fun _ => none) (.src s) σ o τ) (h' : IrExec (fun _ => none) (.st t) σ o' τ') (hx : τ x ≠ τ' x) :
    ¬ C59_full := by
  intro hf
  obtain ⟨t₀, ht₀, hiff⟩ := hf twoVars s hs
  cases ht.symm.trans ht₀
  have := irExec_det h' ((hiff (fun _ => none) (by simp [twoVars]) σ o τ).1 h)
  exact hx (by rw [this.2])

/-- The sum of 1, 3 and 5 is 9. -/
theorem C59_step_exec : ∃ τ, Exec (fun _ => none) (.src oddSum) (fun _ => 0) .next τ ∧ τ "x" = 9 :=
  ⟨_, .cons (.fors (.loop (.iterNext (.innermost (.cons .assign .nil)) (.iterNext (.innermost (.cons .assign .nil))
    (.iterNext (.innermost (.cons .assign .nil)) .iterEnd))))) .nil, rfl⟩

/-- The step and the last value are swapped: in `1:2:5` the loop goes from 1 to 2 with step 5, and the sum is 1. -/
theorem C59_step_false : ¬ C59_full := by
  obtain ⟨τ, h, hx⟩ := C59_step_exec
  refine C59_differs (s := oddSum) (x := "x") (τ' := assignTo (fun _ => 0) "x" 1) (by decide) rfl h
    (.seq (.seq (.forOp (.fromNext (by decide) (.seq .set .skip) (.fromEnd (by decide)))) .skip) .skip) ?_
  rw [hx]
  decide

/-- Six pairs. -/
theorem C59_nested_exec : ∃ τ, Exec (fun _ => none) (.src pairs) (fun _ => 0) .next τ ∧ τ "x" = 6 :=
  ⟨_, .cons (.fors (.loop (.iterNext
    (.loop (.iterNext (.innermost (.cons .assign .nil)) (.iterNext (.innermost (.cons .assign .nil))
      (.iterNext (.innermost (.cons .assign .nil)) .iterEnd))))
    (.iterNext
    (.loop (.iterNext (.innermost (.cons .assign .nil)) (.iterNext (.innermost (.cons .assign .nil))
      (.iterNext (.innermost (.cons .assign .nil)) .iterEnd)))) .iterEnd)))) .nil, rfl⟩

/-- The loops of several indices follow each other instead of being nested: the body is executed 2 + 3 times. -/
theorem C59_nested_false : ¬ C59_full := by
  obtain ⟨τ, h, hx⟩ := C59_nested_exec
  refine C59_differs (s := pairs) (x := "x") (by decide) rfl h
    (.seq (.seq (.forOp (.fromNext (by decide) (.seq .set .skip) (.fromNext (by decide) (.seq .set .skip)
      (.fromEnd (by decide)))))
      (.seq (.forOp (.fromNext (by decide) (.seq .set .skip) (.fromNext (by decide) (.seq .set .skip)
        (.fromNext (by decide) (.seq .set .skip) (.fromEnd (by decide)))))) .skip)) .skip) ?_
  rw [hx]
  decide

/-- If the body uses two indices, then it is rejected: one of them is not declared in each loop. -/
theorem C59_undeclared_false : inScope twoVars products = true ∧ lower twoVars products = .error :=
  ⟨by decide, rfl⟩

/-- Four iterations. -/
theorem C59_limit_exec : ∃ τ, Exec (fun _ => none) (.src shrink) (fun _ => 4) .next τ ∧ τ "n" = 0 :=
  ⟨_, .cons (.fors (.loop (.iterNext (.innermost (.cons .assign .nil)) (.iterNext (.innermost (.cons .assign .nil))
    (.iterNext (.innermost (.cons .assign .nil)) (.iterNext (.innermost (.cons .assign .nil)) .iterEnd)))))) .nil,
    rfl⟩

/-- The limit is evaluated before each iteration instead of once: a body that decreases it is executed twice. -/
theorem C59_limit_false : ¬ C59_full := by
  obtain ⟨τ, h, hx⟩ := C59_limit_exec
  refine C59_differs (s := shrink) (x := "n") (by decide) rfl h
    (.seq (.seq (.forOp (.fromNext (by decide) (.seq .set .skip) (.fromNext (by decide) (.seq .set .skip)
      (.fromEnd (by decide))))) .skip) .skip) ?_
  rw [hx]
  decide

/-- The property holds if every `for` has one index, a range without a step, and a limit that reads no variable that
its body assigns. Missing: the other `for` statements, for which it is false. -/
theorem C59_forStatements_partial (Γ : Scope) {k : Kind} (s : Src k) (hs : inScope Γ s = true)
    (hl : simpleLoops s = true) :
    ∃ t, lower Γ s = .ok t ∧ ∀ ρ, (∀ x, x ∈ Γ.inds ↔ (ρ x).isSome) → ∀ σ o τ,
      Exec ρ (.src s) σ o τ ↔ IrExec ρ (.st t) σ o τ :=
  lower_iff s Γ hs hl

/-- The execution of the operations is deterministic, so that the state is the one of the program. -/
theorem C59_deterministic {ρ c σ o τ o' τ'} (h : IrExec ρ c σ o τ) (h' : IrExec ρ c σ o' τ') : o' = o ∧ τ' = τ :=
  irExec_det h h'

/-- `for i in 1:n loop for i in i:n loop x := x + i; end for; if x then break; end if; end for;` with a hidden
iteration variable. -/
example : inScope twoVars (.cons (.fors [⟨"i", .const 1, .var "n", none⟩]
      (.cons (.fors [⟨"i", .var "i", .var "n", none⟩] (addTo "x" (.var "i")))
        (.cons (.ifs (.var "x") (.cons .brk .nil) .noElse) .nil))) .nil) = true ∧
    simpleLoops (.cons (.fors [⟨"i", .const 1, .var "n", none⟩]
      (.cons (.fors [⟨"i", .var "i", .var "n", none⟩] (addTo "x" (.var "i")))
        (.cons (.ifs (.var "x") (.cons .brk .nil) .noElse) .nil))) .nil) = true := by decide

end Marco.Props
