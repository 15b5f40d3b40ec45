import Verif.Model.Derivative
import Mathlib.Data.Finset.Basic

/-!
# Model of the index reduction: what the Pantelides pass adds to the model
(`/repo/lib/Dialect/BaseModelica/Transforms/Pantelides.cpp`,
`/repo/lib/Dialect/BaseModelica/Transforms/AutomaticDifferentiation/ForwardAD.cpp`,
`/repo/include/marco/Modeling/Pantelides.h`)

The visits of the graph, which decide what is differentiated, are not modelled: the pass is a list of
requests. The graph itself is in `Model/Pantelides.lean`. Variables are numbers, so the names of the
derivatives (Pantelides.cpp:157-165) are not modelled. The canonicalization of the derived templates
(ForwardAD.cpp:190-193), which must not change their values, is not modelled. The operations of a
template are unfolded to trees; `Expr.var k` is the `k`-th value read by the template. The indices
of a scalar are `{[]}`; the graph uses `{[0]}`.
-/

namespace Marco.IndexReduction
open Marco.Derivatives

/-- A subscript of a TensorExtractOp: a constant, an induction variable, or the result of an operation
on an induction variable (`ind k + c`). -/
inductive Sub where
  | const (c : Int)
  | ind (k : Nat)
  | shift (k : Nat) (c : Int)
  deriving DecidableEq, Repr

/-- The value of a subscript. -/
def Sub.val (p : List Int) : Sub → Int
  | .const c => c
  | .ind k => p.getD k 0
  | .shift k c => p.getD k 0 + c

/-- A value read by a template: an element of a variable (VariableGetOp, TensorExtractOp) or an
induction variable used as operand. -/
inductive Acc where
  | elem (v : Nat) (subs : List Sub)
  | ind (k : Nat)
  deriving DecidableEq, Repr

/-- The element of a variable. -/
abbrev Elem := Nat × List Int

/-- EquationTemplateOp with scalar sides. -/
structure Tmpl where
  /-- values read -/
  accs : List Acc
  /-- left-hand side -/
  lhs : Expr
  /-- right-hand side -/
  rhs : Expr

/-- Whether an operation of the template has an induction variable as operand. The derivatives of the
induction variables are given to those of the *old* template (ForwardAD.cpp:158-163), while the
operations derived are clones reading those of the new one (149-153, 178): there the derivative of an
induction variable is not found, and the operation fails (e.g.
DerivableOpInterfaceImpl.cpp:1266-1270), also when it only computes a subscript. The subscripts of
a TensorExtractOp are not derived (365-372). -/
def Acc.usesInduction : Acc → Bool
  | .ind _ => true
  | .elem _ subs => subs.any fun | .shift _ _ => true | _ => false

/-- The value whose derivative replaces that of a read: DerivableOpInterfaceImpl.cpp:859-866 (the same
element of the derivative variable), with the subscripts of 371-372. -/
def Acc.derived (der : Nat → Option Nat) : Acc → Acc
  | .elem v subs => .elem ((der v).getD v) subs
  | .ind k => .ind k

/-- The state of the differentiation of a template: the derivative of the `k`-th value is the
`k + L`-th, where the variable has a derivative (Pantelides.cpp:167-174); the others are constants
(`unknowVariablesAsConstants`, Pantelides.cpp:349). -/
def adState (der : Nat → Option Nat) (accs : List Acc) : Expr.State where
  der k := match accs[k]? with
    | some (.elem v _) => (der v).map fun _ => k + accs.length
    | _ => none
  unknownAsConstants := true
  dTime := 1

/-- `createEquationTimeDerivative`: ForwardAD.cpp:137-195. `none`: nullptr. -/
def Tmpl.derive (der : Nat → Option Nat) (t : Tmpl) : Option Tmpl :=
  if t.accs.any Acc.usesInduction then none
  else do
    let lhs ← Expr.derive (adState der t.accs) t.lhs
    let rhs ← Expr.derive (adState der t.accs) t.rhs
    some ⟨t.accs ++ t.accs.map (Acc.derived der), lhs, rhs⟩

/-- EquationInstanceOp. -/
structure Eqn where
  /-- number of induction variables -/
  rank : Nat
  /-- template -/
  tmpl : Tmpl
  /-- indices; not set for rank 0 -/
  idx : Finset (List Int)

/-- The points of an equation. -/
def Eqn.points (e : Eqn) : Finset (List Int) := if e.rank = 0 then {[]} else e.idx

/-- The model, its derivatives map and the derivatives of the equations (Pantelides.cpp:23-91). -/
structure IState where
  /-- number of variables -/
  next : Nat
  /-- rank of the variables -/
  rank : Nat → Nat
  /-- `isReadOnly` -/
  readOnly : Nat → Bool
  /-- derivative variable -/
  der : Nat → Option Nat
  /-- derived indices -/
  derIdx : Nat → Finset (List Int)
  /-- equations -/
  eqs : List Eqn
  /-- `equationDerivatives` -/
  eqDer : Nat → Option Nat

/-- The indices of a variable the graph has as differentiated: Pantelides.cpp:184-197,
Pantelides.h:372-380. -/
def IState.known (s : IState) (v : Nat) : Finset (List Int) :=
  match s.der v with
  | none => ∅
  | some _ => if s.rank v = 0 then {[]} else s.derIdx v

/-- `differentiateVariable`: Pantelides.h:362-412 (the indices not yet differentiated),
Pantelides.cpp:205-262 (the derivative variable exists: 214-226; a new one: 228-261). -/
def IState.diffVar (s : IState) (v : Nat) (indices : Finset (List Int)) : IState :=
  let new := indices \ s.known v
  if new = ∅ then s
  else match s.der v with
    | some _ =>
      if s.rank v ≠ 0 then { s with derIdx := Function.update s.derIdx v (s.derIdx v ∪ new) } else s
    | none =>
      { s with
        next := s.next + 1
        rank := Function.update s.rank s.next (s.rank v)
        readOnly := Function.update s.readOnly s.next false
        der := Function.update s.der v (some s.next)
        derIdx := Function.update s.derIdx v (if s.rank v ≠ 0 then new else ∅) }

/-- The points of an equation already differentiated: Pantelides.h:431-439. -/
def IState.knownEq (s : IState) (e : Nat) : Finset (List Int) :=
  match (s.eqDer e).bind fun d => s.eqs[d]? with
  | none => ∅
  | some d => d.points

/-- `differentiateEquation`: Pantelides.h:421-474, Pantelides.cpp:264-334 (the derivative exists:
275-295; a new one: 297-333). `none`: an unknown equation, or the failing assertion of 306-307 (with
assertions compiled out the null template is used). The assertion of line 285 cannot fail: the points
of the derivative of a scalar equation are all known. -/
def IState.diffEq (s : IState) (e : Nat) (indices : Finset (List Int)) : Option IState := do
  let eqn ← s.eqs[e]?
  let new := indices \ s.knownEq e
  if new = ∅ then some s
  else match s.eqDer e with
    | some d => do
      let der ← s.eqs[d]?
      some { s with eqs := s.eqs.set d { der with idx := der.idx ∪ new } }
    | none => do
      let t ← eqn.tmpl.derive s.der
      some { s with
        eqs := s.eqs ++ [⟨eqn.rank, t, if eqn.rank ≠ 0 then new else ∅⟩]
        eqDer := Function.update s.eqDer e (some s.eqs.length) }

/-- What `run` asks for: Pantelides.h:342-343. -/
inductive Req where
  | var (v : Nat) (indices : Finset (List Int))
  | eq (e : Nat) (indices : Finset (List Int))

/-- One request. -/
def IState.step (s : IState) : Req → Option IState
  | .var v I => some (s.diffVar v I)
  | .eq e I => s.diffEq e I

/-- All the requests of `run`: Pantelides.h:294-349. -/
def IState.run (s : IState) : List Req → Option IState
  | [] => some s
  | r :: rs => (s.step r).bind fun s' => s'.run rs

end Marco.IndexReduction
