import Verif.Model.Folding

/-!
# Model of the conversion of the operations on scalars to the `arith` dialect
(`/repo/lib/Codegen/Conversion/BaseModelicaToArith/BaseModelicaToArith.cpp`)

The result of the conversion of an operation is an expression of operations of the `arith` dialect. A `CastOp` that the
conversion creates is converted at once. The `index` type is left out.
-/

namespace Marco.Fold

/-- The types of the `arith` values; `/repo/lib/Codegen/Conversion/BaseModelicaCommon/TypeConverter.cpp:39-66` with the default
sizes of `/repo/lib/Dialect/BaseModelica/IR/Types.cpp:77-137`. -/
inductive ATy where
  | i1
  | i64
  | f64
  deriving DecidableEq, Repr

/-- `/repo/lib/Codegen/Conversion/BaseModelicaCommon/TypeConverter.cpp:39-66` -/
def convertType : Ty → ATy
  | .bool => .i1
  | .int => .i64
  | .real => .f64

/-- The binary operations on integers (of either width). -/
inductive IOp where
  | addi
  | subi
  | muli
  | divsi
  | andi
  | ori
  deriving DecidableEq

/-- The binary operations on `double`. -/
inductive FOp where
  | addf
  | subf
  | mulf
  | divf
  deriving DecidableEq

/-- `arith::CmpIPredicate` -/
inductive IPred where
  | eq
  | ne
  | sgt
  | sge
  | slt
  | sle
  deriving DecidableEq

/-- `arith::CmpFPredicate` -/
inductive FPred where
  | oeq
  | one
  | ogt
  | oge
  | olt
  | ole
  deriving DecidableEq

/-- The expressions of the `arith` dialect. -/
inductive Tm where
  /-- the first operand -/
  | lhs
  /-- the second operand -/
  | rhs
  /-- `arith::ConstantOp` with a zero of the type -/
  | zero (t : ATy)
  /-- `arith::ExtUIOp` from `i1` to `i64` -/
  | extui (e : Tm)
  /-- `arith::TruncIOp` from `i64` to `i1` -/
  | trunci (e : Tm)
  /-- `arith::SIToFPOp` from `i64` to `f64` -/
  | sitofp (e : Tm)
  /-- `arith::FPToSIOp` from `f64` to the type -/
  | fptosi (t : ATy) (e : Tm)
  | iop (o : IOp) (l r : Tm)
  | fop (o : FOp) (l r : Tm)
  /-- `arith::NegFOp` -/
  | negf (e : Tm)
  /-- `arith::CmpIOp` -/
  | cmpi (p : IPred) (l r : Tm)
  /-- `arith::CmpFOp` -/
  | cmpf (p : FPred) (l r : Tm)

/-- `/repo/lib/Dialect/BaseModelica/IR/Dialect.cpp:197-263` (`getMostGenericScalarType`) on the types of MLIR: the wider
integer, or the float. -/
def mostGeneric : ATy → ATy → ATy
  | .i1, t => t
  | .i64, .i1 => .i64
  | .i64, t => t
  | .f64, _ => .f64

/-- `/repo/lib/Codegen/Conversion/BaseModelicaToArith/BaseModelicaToArith.cpp:84-200` (`CastOpIntegerLowering`,
`CastOpFloatLowering`). An integer goes to the width of the result (117-129) and then to a float (131-139); a float goes to
an integer of the width of the result (171-179). Between equal types nothing is created. -/
def castTm : ATy → ATy → Tm → Tm
  | .i1, .i1, e => e
  | .i1, .i64, e => .extui e
  | .i1, .f64, e => .sitofp (.extui e)
  | .i64, .i1, e => .trunci e
  | .i64, .i64, e => e
  | .i64, .f64, e => .sitofp e
  | .f64, .i1, e => .fptosi .i1 e
  | .f64, .i64, e => .fptosi .i64 e
  | .f64, .f64, e => e

/-- `/repo/lib/Codegen/Conversion/BaseModelicaToArith/BaseModelicaToArith.cpp:652-719` (`NotOpIntegerLowering`,
`NotOpFloatLowering`), `1203-1246` (`NegateOpLowering`), `84-200` (`CastOp`) -/
def lower1 (op : UnOp) (t res : ATy) : Tm :=
  match op with
  | .neg =>
    match t with
    | .f64 => castTm .f64 res (.negf .lhs)
    | t => castTm t res (.iop .subi (.zero t) .lhs)
  | .not =>
    match t with
    | .f64 => castTm .i1 res (.cmpf .oeq .lhs (.zero .f64))
    | t => castTm .i1 res (.cmpi .eq .lhs (.zero t))
  | .cast => castTm t res .lhs

/-- An arithmetic operation: `/repo/lib/Codegen/Conversion/BaseModelicaToArith/BaseModelicaToArith.cpp:1248-1311` (`AddOp`),
`1341-1404` (`SubOp`), `1434-1497` (`MulOp`). The operands go to the most generic type, the result to the requested type. -/
def arithTm (g : ATy) (i : IOp) (f : FOp) (tl tr res : ATy) : Tm :=
  match g with
  | .f64 => castTm .f64 res (.fop f (castTm tl .f64 .lhs) (castTm tr .f64 .rhs))
  | g => castTm g res (.iop i (castTm tl g .lhs) (castTm tr g .rhs))

/-- A comparison: `/repo/lib/Codegen/Conversion/BaseModelicaToArith/BaseModelicaToArith.cpp:244-645` -/
def cmpTm (i : IPred) (f : FPred) (tl tr res : ATy) : Tm :=
  match mostGeneric tl tr with
  | .f64 => castTm .i1 res (.cmpf f (castTm tl .f64 .lhs) (castTm tr .f64 .rhs))
  | g => castTm .i1 res (.cmpi i (castTm tl g .lhs) (castTm tr g .rhs))

/-- The comparison of an operand of `AndOp` or `OrOp` with zero (for example `BaseModelicaToArith.cpp:733-745`, `780-791`). -/
def nonZeroTm (t : ATy) (e : Tm) : Tm :=
  match t with
  | .f64 => .cmpf .one e (.zero .f64)
  | t => .cmpi .ne e (.zero t)

/-- The conversion of the binary operations. `DivOp` (`BaseModelicaToArith.cpp:1527-1595`) takes the type of the operands from the
result when it is a float (1550-1554). `AndOp` is at 721-912, `OrOp` at 915-1117: four patterns each, for the types of the
operands. -/
def lower2 (op : BinOp) (tl tr res : ATy) : Tm :=
  match op with
  | .add => arithTm (mostGeneric tl tr) .addi .addf tl tr res
  | .sub => arithTm (mostGeneric tl tr) .subi .subf tl tr res
  | .mul => arithTm (mostGeneric tl tr) .muli .mulf tl tr res
  | .div => arithTm (if res = .f64 then .f64 else mostGeneric tl tr) .divsi .divf tl tr res
  | .eq => cmpTm .eq .oeq tl tr res
  | .ne => cmpTm .ne .one tl tr res
  | .gt => cmpTm .sgt .ogt tl tr res
  | .ge => cmpTm .sge .oge tl tr res
  | .lt => cmpTm .slt .olt tl tr res
  | .le => cmpTm .sle .ole tl tr res
  | .and => castTm .i1 res (.iop .andi (nonZeroTm tl .lhs) (nonZeroTm tr .rhs))
  | .or => castTm .i1 res (.iop .ori (nonZeroTm tl .lhs) (nonZeroTm tr .rhs))

end Marco.Fold
