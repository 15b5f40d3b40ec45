import Mathlib.Algebra.Field.Defs

/-!
# Model of `EquationTemplateOp::explicitate` (`/repo/lib/Dialect/BaseModelica/IR/Ops.cpp`) and of
the inversion and distribution interfaces

The operations of an equation form a graph of SSA values; the model unfolds it to a tree. Values
are scalars of a field `K`, so that the element-wise operations differ from the plain ones only by
the rules that apply to them. `unwrap` (InvertibleOpInterfaceImpl.cpp:6-19) converts arrays of rank
zero to scalars and is the identity here. Types of the results are not modelled.
-/

namespace Marco.Equations

/-- The operations of an equation, as far as explicitation distinguishes them. -/
inductive Expr (K : Type) where
  /-- The access to be made explicit (all the accesses that `checkAccessEquivalence`, Ops.cpp:
  9199-9222, accepts denote the same scalar at each iteration). -/
  | x
  /-- Another value defined by an operation and not depending on `x`: other variables. -/
  | atom (n : Nat)
  /-- A block argument: an induction variable. -/
  | arg (n : Nat)
  /-- ConstantOp. -/
  | const (c : K)
  /-- NegateOp. -/
  | neg (a : Expr K)
  /-- AddOp, AddEWOp (`ew`). -/
  | add (ew : Bool) (a b : Expr K)
  /-- SubOp, SubEWOp. -/
  | sub (ew : Bool) (a b : Expr K)
  /-- MulOp, MulEWOp. -/
  | mul (ew : Bool) (a b : Expr K)
  /-- DivOp, DivEWOp. -/
  | div (ew : Bool) (a b : Expr K)
  /-- Any other operation, in particular CallOp. -/
  | app (f : Nat) (n : Nat) (args : Fin n → Expr K)

namespace Expr
variable {K : Type}

/-- `op->getOperand(i)` (Ops.cpp:8811, 8819). -/
def operand : Expr K → Nat → Option (Expr K)
  | neg a, 0 => some a
  | add _ a _, 0 => some a
  | add _ _ b, 1 => some b
  | sub _ a _, 0 => some a
  | sub _ _ b, 1 => some b
  | mul _ a _, 0 => some a
  | mul _ _ b, 1 => some b
  | div _ a _, 0 => some a
  | div _ _ b, 1 => some b
  | app _ n args, i => if h : i < n then some (args ⟨i, h⟩) else none
  | _, _ => none

/-- The `inverse` annotations of the functions (InverseFunctionsAttr): callee, number of its
arguments and argument ↦ inverse function and the positions of its arguments, where the number of
arguments stands for the result (InvertibleOpInterfaceImpl.cpp:444-472). `none` also for the
operations that are not calls. -/
abbrev Annotations := Nat → Nat → Nat → Option (Nat × List Nat)

/-- `InvertibleOpInterface::inverse(argumentIndex, currentResult)`:
InvertibleOpInterfaceImpl.cpp:20-50 (neg), 52-137 (add), 139-227 (sub), 229-317 (mul), 319-407 (div),
409-483 (call). `none`: not invertible. -/
def inverse (ann : Annotations) : Expr K → Nat → Expr K → Option (Expr K)
  | neg _, 0, r => some (neg r)
  | add ew _ b, 0, r => some (sub ew r b)
  | add ew a _, 1, r => some (sub ew r a)
  | sub ew _ b, 0, r => some (add ew r b)
  | sub ew a _, 1, r => some (sub ew a r)
  | mul ew _ b, 0, r => some (div ew r b)
  | mul ew a _, 1, r => some (div ew r a)
  | div ew _ b, 0, r => some (mul ew r b)
  | div ew a _, 1, r => some (div ew a r)
  | app f n args, i, r =>
    if i < n then (ann f n i).map fun (g, js) =>
      app g js.length fun k => if h : js.get k < n then args ⟨js.get k, h⟩ else r
    else none
  | _, _, _ => none

/-- Ops.cpp:8714-8721: `explicitateLeaf` (8769-8836) for each step of the path after the first,
seen from the side of the path: the side and the other side. -/
def explicitatePath (ann : Annotations) : List Nat → Expr K → Expr K → Option (Expr K × Expr K)
  | [], l, r => some (l, r)
  | i :: is, l, r => do
    let r' ← inverse ann l i r
    let l' ← operand l i
    explicitatePath ann is l' r'

/-! ### Distribution -/

/-- `distributeNegateOp`: Ops.cpp:2188-2218 (neg), 2575-2628 (add), 2876-2929, 3230-3283 (sub),
3531-3584, 3973-4022 (mul), 4349-4398, 4661-4710 (div), 4974-5023. `none`: the operation does not
implement the interface. -/
def distNeg : Expr K → Option (Expr K)
  | neg a => some (neg ((distNeg a).getD (neg a)))
  | add ew a b => some (add ew ((distNeg a).getD (neg a)) ((distNeg b).getD (neg b)))
  | sub ew a b => some (sub ew ((distNeg a).getD (neg a)) ((distNeg b).getD (neg b)))
  | mul ew a b => match distNeg a with
    | some a' => some (mul ew a' b)
    | none => match distNeg b with
      | some b' => some (mul ew a b')
      | none => some (mul ew (neg a) b)
  | div ew a b => match distNeg a with
    | some a' => some (div ew a' b)
    | none => match distNeg b with
      | some b' => some (div ew a b')
      | none => some (div ew (neg a) b)
  | _ => none

/-- `distributeMulOp(value)` (`m = true`): Ops.cpp:2220-2250 (neg), 2631-2684 (add), 2932-2985,
3286-3339 (sub), 3587-3640, 4025-4074 (mul), 4401-4450, 4713-4762 (div), 5026-5075; and
`distributeDivOp(value)` (`m = false`): 2252-2282, 2687-2740, 2988-3041, 3342-3395, 3643-3696,
4077-4126, 4453-4502, 4765-4815, 5078-5128. For a quotient, the divisor undergoes the opposite
operation. -/
def dist (v : Expr K) : Bool → Expr K → Option (Expr K)
  | m, neg a => some (neg ((dist v m a).getD (mk m a)))
  | m, add ew a b => some (add ew ((dist v m a).getD (mk m a)) ((dist v m b).getD (mk m b)))
  | m, sub ew a b => some (sub ew ((dist v m a).getD (mk m a)) ((dist v m b).getD (mk m b)))
  | m, mul ew a b => match dist v m a with
    | some a' => some (mul ew a' b)
    | none => match dist v m b with
      | some b' => some (mul ew a b')
      | none => some (mul ew (mk m a) b)
  | m, div ew a b => match dist v m a with
    | some a' => some (div ew a' b)
    | none => match dist v (!m) b with
      | some b' => some (div ew a b')
      | none => some (div ew (mk m a) b)
  | _, _ => none
where
  /-- The new MulOp or DivOp for an operand that can't be distributed to. -/
  mk : Bool → Expr K → Expr K
    | true, a => mul false a v
    | false, a => div false a v

/-- Ops.cpp:8838-8868, `removeSubtractions` (SubOp only). -/
def removeSub : Expr K → Expr K
  | neg a => neg (removeSub a)
  | add ew a b => add ew (removeSub a) (removeSub b)
  | sub true a b => sub true (removeSub a) (removeSub b)
  | sub false a b => add false (removeSub a) (neg (removeSub b))
  | mul ew a b => mul ew (removeSub a) (removeSub b)
  | div ew a b => div ew (removeSub a) (removeSub b)
  | app f n args => app f n fun i => removeSub (args i)
  | e => e

/-- Ops.cpp:8870-8903, `distributeMulAndDivOps`, with `MulOp::distribute` (3932-3971, 4308-4347) and
`DivOp::distribute` (4637-4659, 4950-4972). -/
def distMulDiv : Expr K → Expr K
  | neg a => neg (distMulDiv a)
  | add ew a b => add ew (distMulDiv a) (distMulDiv b)
  | sub ew a b => sub ew (distMulDiv a) (distMulDiv b)
  | mul ew a b =>
    let a := distMulDiv a
    let b := distMulDiv b
    match dist b true a with
    | some e => e
    | none => match dist a true b with
      | some e => e
      | none => mul ew a b
  | div ew a b =>
    let a := distMulDiv a
    let b := distMulDiv b
    match dist b false a with
    | some e => e
    | none => div ew a b
  | app f n args => app f n fun i => distMulDiv (args i)
  | e => e

/-- Ops.cpp:8905-8928, `pushNegateOps`, with `NegateOp::distribute` (2166-2186). -/
def pushNeg : Expr K → Expr K
  | neg a =>
    let a := pushNeg a
    match distNeg a with
    | some e => e
    | none => neg a
  | add ew a b => add ew (pushNeg a) (pushNeg b)
  | sub ew a b => sub ew (pushNeg a) (pushNeg b)
  | mul ew a b => mul ew (pushNeg a) (pushNeg b)
  | div ew a b => div ew (pushNeg a) (pushNeg b)
  | app f n args => app f n fun i => pushNeg (args i)
  | e => e

/-- Ops.cpp:9268-9288, `convertToSumsFn`. -/
def toSums (e : Expr K) : Expr K := pushNeg (distMulDiv (removeSub e))

/-- Ops.cpp:8930-8949, `collectSummedValues` (AddOp only). -/
def summands : Expr K → List (Expr K)
  | add false a b => summands a ++ summands b
  | e => [e]

/-- The accesses of the expression (`searchAccesses`) contain `x`: `containsAccessFn`, Ops.cpp:
9334-9359, and `hasAccessToVar`, 9135-9161. -/
def hasX : Expr K → Bool
  | x => true
  | neg a => hasX a
  | add _ a b => hasX a || hasX b
  | sub _ a b => hasX a || hasX b
  | mul _ a b => hasX a || hasX b
  | div _ a b => hasX a || hasX b
  | app _ _ args => decide (∃ i, hasX (args i) = true)
  | _ => false

/-- Ops.cpp:9016-9197, `getMultiplyingFactor`: how many times `x` is a factor, and the remaining
factor (inner `none`: null value). `none`: undefined behaviour (`dyn_cast` of the null operation
defining a block argument, line 9085); `some none`: nullopt. The final test (line 9192) is on a
`std::optional<bool>` which always has a value, so any other operation yields a null value, also if
it does not depend on `x`. -/
def factor [One K] : Expr K → Option (Option (Nat × Option (Expr K)))
  | x => some (some (1, some (const 1)))
  | const c => some (some (0, some (const c)))
  | arg _ => none
  | neg a => (factor a).map fun o => o.bind fun (k, e) => e.map fun e => (k, some (neg e))
  | mul false a b => do
    let ra ← factor a
    let rb ← factor b
    some (ra.bind fun (k, ea) => rb.map fun (k', eb) =>
      match ea, eb with
      | some ea, some eb => (k + k', some (mul false ea eb))
      | _, _ => (0, none))
  | div false a b => (factor a).map fun o => o.bind fun (k, e) => match e with
      | none => some (k, none)
      | some e => if hasX b then none else some (k, some (div false e b))
  | _ => some (some (1, none))

/-- Ops.cpp:9361-9389, `groupFactorsFn`. -/
def groupFactors [One K] : List (Expr K) → Expr K → Option (Option (Expr K))
  | [], acc => some (some acc)
  | e :: es, acc => do
    match ← factor e with
    | some (k, some f) => if k > 1 then some none else groupFactors es (add false acc f)
    | _ => some none

/-- Ops.cpp:9391-9408, `groupRemainingFn`. -/
def groupRemaining [Zero K] (es : List (Expr K)) : Expr K := es.foldl (add false) (const 0)

/-- Ops.cpp:9224-9646, `groupLeftHandSide`: the expression for `x`. (`llvm::partition` may reorder
the values; the check for a constant divisor folding to zero, which makes the function fail, is left
out.) Outer `none`: undefined behaviour; inner `none`: failure. -/
def group [Zero K] [One K] (l r : Expr K) : Option (Option (Expr K)) :=
  if hasX l && hasX r then do
    let ls := summands (toSums l)
    let rs := summands (toSums r)
    let lf ← groupFactors (ls.filter hasX) (const 0)
    let rf ← groupFactors (rs.filter hasX) (const 0)
    some (lf.bind fun lf => rf.map fun rf =>
      div false (sub false (groupRemaining (rs.filter fun e => !hasX e))
        (groupRemaining (ls.filter fun e => !hasX e))) (sub false lf rf))
  else if hasX l then do
    let ls := summands (toSums l)
    let lf ← groupFactors (ls.filter hasX) (const 0)
    some (lf.map fun lf => div false (sub false r (groupRemaining (ls.filter fun e => !hasX e))) lf)
  else if hasX r then do
    let rs := summands (toSums r)
    let rf ← groupFactors (rs.filter hasX) (const 0)
    some (rf.map fun rf => div false (sub false l (groupRemaining (rs.filter fun e => !hasX e))) rf)
  else none

/-- The paths leading to the accesses to `x` (`getAccesses`, `getWriteAccesses`, Ops.cpp:
8196-8217). -/
def paths : Expr K → List (List Nat)
  | x => [[]]
  | neg a => (paths a).map (0 :: ·)
  | add _ a b => (paths a).map (0 :: ·) ++ (paths b).map (1 :: ·)
  | sub _ a b => (paths a).map (0 :: ·) ++ (paths b).map (1 :: ·)
  | mul _ a b => (paths a).map (0 :: ·) ++ (paths b).map (1 :: ·)
  | div _ a b => (paths a).map (0 :: ·) ++ (paths b).map (1 :: ·)
  | app _ n args => (List.finRange n).flatMap fun i => (paths (args i)).map (i.val :: ·)
  | _ => []

/-- Ops.cpp:8675-8745, `explicitate`: the two sides of the new equation. Outer `none`: undefined
behaviour; inner `none`: failure. -/
def explicitate [Zero K] [One K] (ann : Annotations) (l r : Expr K) :
    Option (Option (Expr K × Expr K)) :=
  match paths l, paths r with
  | [p], [] => some (explicitatePath ann p l r)
  | [], [p] => some (explicitatePath ann p r l)
  | _, _ => (group l r).map fun o => o.map fun e => (x, e)

end Expr
end Marco.Equations
