/-!
# Model of the distribution of negations, products and quotients
(`/repo/lib/Dialect/BaseModelica/Transforms/OpDistribution.cpp` and the implementations of the interfaces in
`/repo/lib/Dialect/BaseModelica/IR/Ops.cpp`)

A pass replaces a negation, a product or a quotient with the operations obtained by pushing it towards the operands of
its operands. Expressions are trees: a value used twice occurs twice. The types are reduced to the number of dimensions, the
types of the elements (and hence the cast of OpDistribution.cpp:36-40) are left out, and so are the ranges.
-/

namespace Marco.Distr

/-- The binary operations that implement the interfaces (Ops.td:1560-1848). -/
inductive Op where
  | add
  | addEW
  | sub
  | subEW
  | mul
  | mulEW
  | div
  | divEW
  deriving DecidableEq, Repr

/-- A value: a leaf is a block argument or the result of an operation that implements none of the interfaces. -/
inductive Ex where
  | leaf (i : Nat)
  | neg (e : Ex)
  | bin (o : Op) (l r : Ex)
  deriving DecidableEq, Repr

/-- The value is the result of an operation that implements the interfaces; all the operations implement the three of
them. -/
def Ex.isOp : Ex → Bool
  | .leaf _ => false
  | _ => true

/-- `distributeNegateOp`, which succeeds for all the operations; of a leaf, the `NegateOp` that is created where there is no
interface. Ops.cpp:2188-2218 (`NegateOp`), 2575-2629 (`AddOp`), 2876-2930 (`AddEWOp`), 3230-3284 (`SubOp`), 3531-3585 (`SubEWOp`),
3973-4023 (`MulOp`), 4349-4399 (`MulEWOp`), 4661-4711 (`DivOp`), 4974-5024 (`DivEWOp`). -/
def distNeg : Ex → Ex
  | .leaf i => .neg (.leaf i)
  | .neg e => .neg (distNeg e)
  | .bin .add l r => .bin .add (distNeg l) (distNeg r)
  | .bin .addEW l r => .bin .addEW (distNeg l) (distNeg r)
  | .bin .sub l r => .bin .sub (distNeg l) (distNeg r)
  | .bin .subEW l r => .bin .subEW (distNeg l) (distNeg r)
  | .bin o l r =>
    if l.isOp then .bin o (distNeg l) r
    else if r.isOp then .bin o l (distNeg r)
    else .bin o (.neg l) r

mutual

/-- `distributeMulOp` with the factor `v`; of a leaf, the `MulOp` that is created where there is no interface. Ops.cpp:2220-2250
(`NegateOp`), 2631-2685 (`AddOp`), 2932-2986 (`AddEWOp`), 3286-3340 (`SubOp`), 3587-3641 (`SubEWOp`), 4025-4075 (`MulOp`), 4401-4451
(`MulEWOp`), 4713-4763 (`DivOp`), 5026-5076 (`DivEWOp`). -/
def distMul (v : Ex) : Ex → Ex
  | .leaf i => .bin .mul (.leaf i) v
  | .neg e => .neg (distMul v e)
  | .bin .add l r => .bin .add (distMul v l) (distMul v r)
  | .bin .addEW l r => .bin .addEW (distMul v l) (distMul v r)
  | .bin .sub l r => .bin .sub (distMul v l) (distMul v r)
  | .bin .subEW l r => .bin .subEW (distMul v l) (distMul v r)
  | .bin .mul l r =>
    if l.isOp then .bin .mul (distMul v l) r
    else if r.isOp then .bin .mul l (distMul v r)
    else .bin .mul (.bin .mul l v) r
  | .bin .mulEW l r =>
    if l.isOp then .bin .mulEW (distMul v l) r
    else if r.isOp then .bin .mulEW l (distMul v r)
    else .bin .mulEW (.bin .mul l v) r
  | .bin .div l r =>
    if l.isOp then .bin .div (distMul v l) r
    else if r.isOp then .bin .div l (distDiv v r)
    else .bin .div (.bin .mul l v) r
  | .bin .divEW l r =>
    if l.isOp then .bin .divEW (distMul v l) r
    else if r.isOp then .bin .divEW l (distDiv v r)
    else .bin .divEW (.bin .mul l v) r

/-- `distributeDivOp` with the divisor `v`; of a leaf, the `DivOp` that is created where there is no interface. Ops.cpp:2252-2282
(`NegateOp`), 2687-2741 (`AddOp`), 2988-3042 (`AddEWOp`), 3342-3396 (`SubOp`), 3643-3697 (`SubEWOp`), 4077-4127 (`MulOp`), 4453-4503
(`MulEWOp`), 4765-4815 (`DivOp`), 5078-5128 (`DivEWOp`). -/
def distDiv (v : Ex) : Ex → Ex
  | .leaf i => .bin .div (.leaf i) v
  | .neg e => .neg (distDiv v e)
  | .bin .add l r => .bin .add (distDiv v l) (distDiv v r)
  | .bin .addEW l r => .bin .addEW (distDiv v l) (distDiv v r)
  | .bin .sub l r => .bin .sub (distDiv v l) (distDiv v r)
  | .bin .subEW l r => .bin .subEW (distDiv v l) (distDiv v r)
  | .bin .mul l r =>
    if l.isOp then .bin .mul (distDiv v l) r
    else if r.isOp then .bin .mul l (distDiv v r)
    else .bin .mul (.bin .div l v) r
  | .bin .mulEW l r =>
    if l.isOp then .bin .mulEW (distDiv v l) r
    else if r.isOp then .bin .mulEW l (distDiv v r)
    else .bin .mulEW (.bin .div l v) r
  | .bin .div l r =>
    if l.isOp then .bin .div (distDiv v l) r
    else if r.isOp then .bin .div l (distMul v r)
    else .bin .div (.bin .div l v) r
  | .bin .divEW l r =>
    if l.isOp then .bin .divEW (distDiv v l) r
    else if r.isOp then .bin .divEW l (distMul v r)
    else .bin .divEW (.bin .div l v) r

end

/-- The operations with the interface `DistributableOpInterface`. The passes of OpDistribution.cpp:51-70 are those for `NegateOp`,
`MulOp` and `DivOp`. -/
inductive Target where
  | neg
  | mul
  | mulEW
  | div
  | divEW
  deriving DecidableEq, Repr

/-- `distribute`, where a failure leaves the value: Ops.cpp:2166-2186 (`NegateOp`), 3932-3971 (`MulOp`), 4308-4347 (`MulEWOp`),
4637-4659 (`DivOp`), 4950-4972 (`DivEWOp`). -/
def distribute : Target → Ex → Ex
  | .neg, .neg e => if e.isOp then distNeg e else .neg e
  | .mul, .bin .mul l r => if l.isOp then distMul r l else if r.isOp then distMul l r else .bin .mul l r
  | .mulEW, .bin .mulEW l r => if l.isOp then distMul r l else if r.isOp then distMul l r else .bin .mulEW l r
  | .div, .bin .div l r => if l.isOp then distDiv r l else .bin .div l r
  | .divEW, .bin .divEW l r => if l.isOp then distDiv r l else .bin .divEW l r
  | _, e => e

/-- OpDistribution.cpp:18-48: the operations that are there at the beginning are visited in their order, hence after those
of their operands, the uses of which have been replaced. -/
def pass (t : Target) : Ex → Ex
  | .leaf i => .leaf i
  | .neg e => distribute t (.neg (pass t e))
  | .bin o l r => distribute t (.bin o (pass t l) (pass t r))

/-- `inferReturnTypes` of the binary operations, for the number of dimensions: Ops.cpp:2389-2460 (`AddOp`), 2748-2820
(`AddEWOp`), 3049-3120 (`SubOp`), 3403-3475 (`SubEWOp`), 3782-3862 (`MulOp`: no case for an array and a scalar), 4180-4252 (`MulEWOp`), 4509-4582
(`DivOp`), 4822-4894 (`DivEWOp`). `none`: no type is inferred, and the compiler stops. -/
def inferBin : Op → Nat → Nat → Option Nat
  | .add, l, r | .sub, l, r => if l = r then some l else none
  | .addEW, l, r | .subEW, l, r | .mulEW, l, r | .divEW, l, r =>
    if l = 0 then some r else if r = 0 then some l else if l = r then some l else none
  | .mul, 0, r => some r
  | .mul, 1, 1 => some 0
  | .mul, 1, 2 => some 1
  | .mul, 2, 1 => some 1
  | .mul, 2, 2 => some 2
  | .mul, _, _ => none
  | .div, l, 0 => some l
  | .div, _, _ => none

/-- The number of dimensions of a value, given those of the leaves; `NegateOp`: Ops.cpp:2108-2127. -/
def rank (rk : Nat → Nat) : Ex → Option Nat
  | .leaf i => some (rk i)
  | .neg e => rank rk e
  | .bin o l r => do inferBin o (← rank rk l) (← rank rk r)

end Marco.Distr
