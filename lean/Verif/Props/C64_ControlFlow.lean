import Verif.Lemmas.ControlFlow
import Verif.Lemmas.Execution

/-!
# C64: the blocks of a function do what its algorithms do
-/

namespace Marco.Props
open Marco.Stmts Marco.Spec Marco.Cfg

/-- The conversion of the algorithms of a function succeeds exactly if every `break` is inside a loop. Then no
structured operation is left, and, whatever the memory contains, the blocks reach the exit block with some values of
the variables exactly if the execution of the algorithms ends with them, at the end or at a `return`. -/
def C64_full : Prop :=
  ∀ as : List IrSt, ((∃ out, convAlgorithms as = some out) ↔ breaksInLoops false (oneAfterOther as) = true) ∧
    ∀ out, convAlgorithms as = some out → converted out.code ∧ ∀ m τ,
      (Returns out.code out.entry m τ ↔
        ∃ o, o ≠ .brk ∧ IrExec (fun _ => none) (.st (oneAfterOther as)) m.vars o τ)

/-- `if x then while x loop x := x - 1; end while; else x := 1; end if;` -/
def loopInThen : IrSt :=
  .ifOp (.get "x") (.whileOp (.get "x") (.set "x" (.op (· - ·) (.get "x") (.const 1)))) (.set "x" (.const 1))

/-- The `then` region of an `if` with an `else` is never converted: a loop in it is left in the function, … -/
theorem C64_left_false : ¬ C64_full := by
  intro h
  exact ((h [loopInThen]).2 _ rfl).1 2 _ (.tail _ (.head _))

/-- … so the blocks do not reach the exit block where the algorithm ends, … -/
theorem C64_stuck_false : ∃ out, convAlgorithms [loopInThen] = some out ∧
    (∃ τ, IrExec (fun _ => none) (.st (oneAfterOther [loopInThen])) (fun _ => 1) .next τ) ∧
    ∀ m τ, m.vars = (fun _ => 1) → ¬ Returns out.code out.entry m τ := by
  refine ⟨_, rfl, ⟨_, .seq (.ifTrue (by decide) (.whileNext (by decide) .set (.whileEnd rfl))) .skip⟩, ?_⟩
  rintro m τ hm ⟨m', -, hr⟩
  have hS := sound_of_convAlgorithms (as := [loopInThen]) rfl
  obtain ⟨k, hk⟩ := stepsN_of_rtg hr
  obtain ⟨k', p, rfl, hp, h'⟩ := step_first hS (.head _) hk
  simp only [stepOf, Mem.eval, evalIr, hm, Option.some.injEq] at hp
  subst hp
  obtain ⟨k'', p, rfl, hp, h''⟩ := step_first hS (.tail _ (.head _)) h'
  cases hp

/-- … and a `break` outside of loops is accepted if it is there. -/
theorem C64_break_false : breaksInLoops false (oneAfterOther [.ifOp (.get "x") .breakOp .skip]) = false ∧
    (convAlgorithms [.ifOp (.get "x") .breakOp .skip]).isSome = true := ⟨rfl, rfl⟩

/-- The property holds if the `then` region of each `if` with an `else` contains no structured operation. Missing: the
other functions, for which it is false. -/
theorem C64_controlFlow_partial (as : List IrSt) (hs : straightThen (oneAfterOther as) = true) :
    ((∃ out, convAlgorithms as = some out) ↔ breaksInLoops false (oneAfterOther as) = true) ∧
    ∀ out, convAlgorithms as = some out → converted out.code ∧ ∀ m τ,
      (Returns out.code out.entry m τ ↔
        ∃ o, o ≠ .brk ∧ IrExec (fun _ => none) (.st (oneAfterOther as)) m.vars o τ) := by
  refine ⟨?_, fun out h => ⟨?_, fun m τ => ⟨exec_of_returns h, fun ⟨o, ho, he⟩ => returns_of_exec h hs ho he⟩⟩⟩
  · rw [convAlgorithms_eq]
    exact ⟨fun ⟨out, h⟩ => breaksInLoops_of_conv _ _ _ _ _ _ hs h, fun h => conv_isSome _ _ _ _ _ h⟩
  · rw [convAlgorithms_eq] at h
    exact converted_of_conv _ _ _ _ _ _ hs h

/-- For every function: if all its `break`s are inside loops it is converted, and if the blocks reach the exit block,
then with the values with which the algorithms end. -/
theorem C64_values (as : List IrSt) :
    (breaksInLoops false (oneAfterOther as) = true → ∃ out, convAlgorithms as = some out) ∧
    ∀ out, convAlgorithms as = some out → ∀ m τ, Returns out.code out.entry m τ →
      ∃ o, o ≠ .brk ∧ IrExec (fun _ => none) (.st (oneAfterOther as)) m.vars o τ :=
  ⟨fun h => by rw [convAlgorithms_eq]; exact conv_isSome _ _ _ _ _ h, fun _ h _ _ => exec_of_returns h⟩

/-- From the source to the blocks, with the properties C59 and C60: for statements whose names are in scope, with `for`
over one index, without a step and with a limit that the body does not change. -/
theorem C64_source_partial (vars : List String) {k : Kind} (s : Src k) (hi : inScope ⟨[], vars⟩ s = true)
    (hl : simpleLoops s = true) :
    ∃ t, lower ⟨[], vars⟩ s = .ok t ∧ (straightThen t = true → breaksInLoops false t = true →
      ∃ out, convAlgorithms [t] = some out ∧ converted out.code ∧ ∀ m τ,
        (Returns out.code out.entry m τ ↔ ∃ o, o ≠ .brk ∧ Exec (fun _ => none) (.src s) m.vars o τ)) := by
  obtain ⟨t, ht, hiff⟩ := lower_iff s ⟨[], vars⟩ hi hl
  refine ⟨t, ht, fun hst hb => ?_⟩
  have hst' : straightThen (oneAfterOther [t]) = true := by simp [oneAfterOther, straightThen, hst]
  have := C64_controlFlow_partial [t] hst'
  obtain ⟨out, ho⟩ := this.1.2 (by simp [oneAfterOther, breaksInLoops, hb])
  refine ⟨out, ho, (this.2 out ho).1, fun m τ => ((this.2 out ho).2 m τ).trans ?_⟩
  refine exists_congr fun o => and_congr_right fun _ => ?_
  rw [hiff (fun _ => none) (fun _ => ⟨nofun, nofun⟩) m.vars o τ]
  constructor
  · intro h
    cases h with
    | seq ha hb => cases hb; exact ha
    | stop _ ha => exact ha
  · intro h
    by_cases ho : o = .next
    · subst ho; exact .seq h .skip
    · exact .stop ho h

/-- `while x loop for i in 1:y loop if x = i then break; end if; x := x - i; end for; if y then z := 1; else return;
end if; end while;` -/
def twoLoops : IrSt :=
  .whileOp (.get "x") (.seq (.forOp "i" (.const 1) (.get "y") (.const 1)
      (.seq (.ifOp (.op (fun a b => if a = b then 1 else 0) (.get "x") (.ind "i")) .breakOp .noRegion)
        (.set "x" (.op (· - ·) (.get "x") (.ind "i")))))
    (.ifOp (.get "y") (.set "z" (.const 1)) .returnOp))

example : straightThen (oneAfterOther [twoLoops, .set "z" (.const 2)]) = true ∧
    breaksInLoops false (oneAfterOther [twoLoops, .set "z" (.const 2)]) = true ∧
    ((convAlgorithms [twoLoops, .set "z" (.const 2)]).map fun o => (o.entry, o.code.length)) = some (2, 12) := by
  decide

/-- It returns if `y` is 0, before the second algorithm. -/
example : IrExec (fun _ => none) (.st (oneAfterOther [twoLoops, .set "z" (.const 2)]))
    (fun x => if x = "x" then 3 else 0) .ret (fun x => if x = "x" then 3 else 0) :=
  .stop (by decide) (.whileRet (by decide) (.seq (.forOp (.fromEnd (by decide))) (.ifFalse (by decide) .returnOp)))

/-- A `break` outside of loops is reported. -/
example : straightThen (oneAfterOther [.ifOp (.get "x") .breakOp .noRegion]) = true ∧
    (convAlgorithms [.ifOp (.get "x") .breakOp .noRegion]).isSome = false := ⟨rfl, rfl⟩

/-- `for i in 1:x loop if i = y then break; end if; y := y + i; end for;` -/
example : let s : Src .block := .cons (.fors [⟨"i", .const 1, .var "x", none⟩]
      (.cons (.ifs (.op (fun a b => if a = b then 1 else 0) (.var "i") (.var "y")) (.cons .brk .nil) .noElse)
        (.cons (.assign "y" (.op (· + ·) (.var "y") (.var "i"))) .nil))) .nil
    inScope ⟨[], ["x", "y"]⟩ s = true ∧ simpleLoops s = true ∧
    ∃ t, lower ⟨[], ["x", "y"]⟩ s = .ok t ∧ straightThen t = true ∧ breaksInLoops false t = true :=
  ⟨by decide, by decide, _, rfl, rfl, rfl⟩

end Marco.Props
