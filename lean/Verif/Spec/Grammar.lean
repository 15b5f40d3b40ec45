import Verif.Model.ExprParser

/-!
# The grammar of Modelica expressions

The rules of the Modelica Language Specification (appendix "Modelica Concrete Syntax", "Expressions"), with the
tree that each sentence stands for. Binary operators group to the left; a chain of `or` (or of `and`) is one
node with all the operands; parentheses leave no trace.

A `Dialect` says which of the constructs on which marco and Modelica differ are allowed. Left out (the trees have
no node for them): matrices `[…; …]`, `end` in subscripts, partial application of functions, `initial()` and
`pure()`.
-/

namespace Marco.Spec
open Marco.Parse

/-- Constructs that are not common to Modelica and to what marco reads. -/
structure Dialect where
  /-- `if a then b elseif c then d else e` -/
  elseIf : Prop
  /-- `.+ a` and `.- a` -/
  dotSign : Prop
  /-- `.a.b` -/
  globalRef : Prop
  /-- `(a, ) = f(x)`: the last output is ignored -/
  omittedLast : Prop
  /-- `a ^ b ^ c`, grouping to the left -/
  powChain : Prop
  /-- `f(x)[1]`, `{1, 2}[1]` -/
  closedSub : Prop
  /-- `(a b)` for `(a, b)`, and `(a, b,)` for `(a, b)` -/
  looseOutputs : Prop

/-- Modelica. -/
def modelica : Dialect := ⟨True, True, True, True, False, False, False⟩

/-- The constructs of Modelica that marco reads, and the ones it adds. -/
def marco : Dialect := ⟨False, False, False, False, True, True, True⟩

/-- The common constructs. -/
def common : Dialect := ⟨False, False, False, False, False, False, False⟩

/-- The symbols of the grammar. -/
inductive Sym where
  | expr | elses | simple | logical | ors | lterm | ands | lfactor | relation | arith | term | factor
  | primary | group | closed | outputs | outs | exprs
  | cref | path | entry | subscripts | subs | sub
  | callArgs | args | nonFirst | named | namedArg | forIndices | forIndex

/-- What a symbol stands for. -/
@[reducible] def Sym.Val : Sym → Type
  | .ors | .ands | .outputs | .outs | .exprs | .path | .subscripts | .subs | .callArgs | .args
  | .nonFirst | .named | .forIndices => List Ast
  | _ => Ast

/-- Relational operators. -/
def relToks : List (Tok × Op) :=
  [(.lt, .less), (.le, .lessEqual), (.gt, .greater), (.ge, .greaterEqual), (.eq, .equal),
   (.ne, .different)]

/-- Additive operators. -/
def addToks : List (Tok × Op) :=
  [(.plus, .add), (.minus, .subtract), (.plusEW, .addEW), (.minusEW, .subtractEW)]

/-- Multiplicative operators. -/
def mulToks : List (Tok × Op) :=
  [(.times, .multiply), (.over, .divide), (.timesEW, .multiplyEW), (.overEW, .divideEW)]

/-- Power operators. -/
def powToks : List (Tok × Op) := [(.pow, .powerOf), (.powEW, .powerOfEW)]

/-- The tokens derive from the symbol, and stand for the tree. -/
inductive Der (d : Dialect) : (s : Sym) → List Tok → s.Val → Prop where
  -- expression
  | expr {ts e} : Der d .simple ts e → Der d .expr ts e
  | ifElse {cs c ts t us u} : Der d .expr cs c → Der d .expr ts t → Der d .elses us u →
      Der d .expr (.kIf :: (cs ++ .kThen :: (ts ++ us))) (.op .ifelse [c, t, u])
  | else {ts e} : Der d .expr ts e → Der d .elses (.kElse :: ts) e
  | elseIf {cs c ts t us u} : d.elseIf → Der d .expr cs c → Der d .expr ts t → Der d .elses us u →
      Der d .elses (.kElseIf :: (cs ++ .kThen :: (ts ++ us))) (.op .ifelse [c, t, u])
  -- simple-expression
  | simple {ts e} : Der d .logical ts e → Der d .simple ts e
  | range {ts e us f} : Der d .logical ts e → Der d .logical us f →
      Der d .simple (ts ++ .colon :: us) (.op .range [e, f])
  | rangeStep {ts e us f vs g} : Der d .logical ts e → Der d .logical us f → Der d .logical vs g →
      Der d .simple (ts ++ .colon :: (us ++ .colon :: vs)) (.op .range [e, f, g])
  -- logical-expression
  | logical {ts e} : Der d .lterm ts e → Der d .logical ts e
  | or {ts es} : Der d .ors ts es → 2 ≤ es.length → Der d .logical ts (.op .lor es)
  | orsOne {ts e} : Der d .lterm ts e → Der d .ors ts [e]
  | orsCons {ts e us es} : Der d .lterm ts e → Der d .ors us es →
      Der d .ors (ts ++ .kOr :: us) (e :: es)
  -- logical-term
  | lterm {ts e} : Der d .lfactor ts e → Der d .lterm ts e
  | and {ts es} : Der d .ands ts es → 2 ≤ es.length → Der d .lterm ts (.op .land es)
  | andsOne {ts e} : Der d .lfactor ts e → Der d .ands ts [e]
  | andsCons {ts e us es} : Der d .lfactor ts e → Der d .ands us es →
      Der d .ands (ts ++ .kAnd :: us) (e :: es)
  -- logical-factor
  | lfactor {ts e} : Der d .relation ts e → Der d .lfactor ts e
  | not {ts e} : Der d .relation ts e → Der d .lfactor (.kNot :: ts) (.op .lnot [e])
  -- relation
  | relation {ts e} : Der d .arith ts e → Der d .relation ts e
  | rel {ts e us f t k} : (t, k) ∈ relToks → Der d .arith ts e → Der d .arith us f →
      Der d .relation (ts ++ t :: us) (.op k [e, f])
  -- arithmetic-expression
  | arith {ts e} : Der d .term ts e → Der d .arith ts e
  | plus {ts e} : Der d .term ts e → Der d .arith (.plus :: ts) e
  | minus {ts e} : Der d .term ts e → Der d .arith (.minus :: ts) (.op .negate [e])
  | dotPlus {ts e} : d.dotSign → Der d .term ts e → Der d .arith (.plusEW :: ts) e
  | dotMinus {ts e} : d.dotSign → Der d .term ts e → Der d .arith (.minusEW :: ts) (.op .negate [e])
  | add {ts e us f t k} : (t, k) ∈ addToks → Der d .arith ts e → Der d .term us f →
      Der d .arith (ts ++ t :: us) (.op k [e, f])
  -- term
  | term {ts e} : Der d .factor ts e → Der d .term ts e
  | mul {ts e us f t k} : (t, k) ∈ mulToks → Der d .term ts e → Der d .factor us f →
      Der d .term (ts ++ t :: us) (.op k [e, f])
  -- factor
  | factor {ts e} : Der d .primary ts e → Der d .factor ts e
  | pow {ts e us f t k} : (t, k) ∈ powToks → Der d .primary ts e → Der d .primary us f →
      Der d .factor (ts ++ t :: us) (.op k [e, f])
  | powChain {ts e us f t k} : d.powChain → (t, k) ∈ powToks → Der d .factor ts e →
      Der d .primary us f → Der d .factor (ts ++ t :: us) (.op k [e, f])
  -- primary
  | int {n} : Der d .primary [.int n] (.int n)
  | real {q} : Der d .primary [.real q] (.real q)
  | str {s} : Der d .primary [.str s] (.str s)
  | true : Der d .primary [.kTrue] (.bool true)
  | false : Der d .primary [.kFalse] (.bool false)
  | ref {ts e} : Der d .cref ts e → Der d .primary ts e
  | group {ts e} : Der d .group ts e → Der d .primary ts e
  | groupSub {ts e us ss} : Der d .group ts e → Der d .subscripts us ss →
      Der d .primary (ts ++ us) (.op .subscription (e :: ss))
  | closed {ts e} : Der d .closed ts e → Der d .primary ts e
  | closedSub {ts e us ss} : d.closedSub → Der d .closed ts e → Der d .subscripts us ss →
      Der d .primary (ts ++ us) (.op .subscription (e :: ss))
  | paren {ts e} : Der d .outputs ts [e] → Der d .group (.lpar :: (ts ++ [.rpar])) e
  | tuple {ts es} : Der d .outputs ts es → es.length ≠ 1 →
      Der d .group (.lpar :: (ts ++ [.rpar])) (.tuple es)
  | call {ts c us as} : Der d .cref ts c → Der d .callArgs us as →
      Der d .closed (ts ++ us) (.call c as)
  | der {us as} : Der d .callArgs us as →
      Der d .closed (.kDer :: us) (.call (.ref Bool.false [.entry "der" []]) as)
  | array {ts es} : Der d .exprs ts es → Der d .closed (.lcurly :: (ts ++ [.rcurly])) (.array es)
  | generator {ts e us is} : Der d .expr ts e → Der d .forIndices us is →
      Der d .closed (.lcurly :: (ts ++ .kFor :: (us ++ [.rcurly]))) (.generator e is)
  -- output-expression-list
  | outputsNone : Der d .outputs [] []
  | outputs {ts es} : Der d .outs ts es → Der d .outputs ts es
  | outsOne {ts e} : Der d .expr ts e → Der d .outs ts [e]
  | outsCons {ts e us es} : Der d .expr ts e → Der d .outs us es →
      Der d .outs (ts ++ .comma :: us) (e :: es)
  | outsSkip {us es} : Der d .outs us es → Der d .outs (.comma :: us) (.dummy :: es)
  | outsLast {ts e} : d.omittedLast → Der d .expr ts e → Der d .outs (ts ++ [.comma]) [e, .dummy]
  | outsSkipLast : d.omittedLast → Der d .outs [.comma] [.dummy, .dummy]
  | outsLoose {ts e us es} : d.looseOutputs → Der d .expr ts e → Der d .outs us es →
      Der d .outs (ts ++ us) (e :: es)
  | outsTrailing {ts e} : d.looseOutputs → Der d .expr ts e → Der d .outs (ts ++ [.comma]) [e]
  | outsComma : d.looseOutputs → Der d .outs [.comma] [.dummy]
  -- expression-list
  | exprsOne {ts e} : Der d .expr ts e → Der d .exprs ts [e]
  | exprsCons {ts e us es} : Der d .expr ts e → Der d .exprs us es →
      Der d .exprs (ts ++ .comma :: us) (e :: es)
  -- component-reference
  | cref {ts es} : Der d .path ts es → Der d .cref ts (.ref Bool.false es)
  | globalRef {ts es} : d.globalRef → Der d .path ts es → Der d .cref (.dot :: ts) (.ref Bool.true es)
  | pathOne {ts e} : Der d .entry ts e → Der d .path ts [e]
  | pathCons {ts e us es} : Der d .entry ts e → Der d .path us es →
      Der d .path (ts ++ .dot :: us) (e :: es)
  | entry {s} : Der d .entry [.ident s] (.entry s [])
  | entrySub {s us ss} : Der d .subscripts us ss → Der d .entry (.ident s :: us) (.entry s ss)
  -- array-subscripts
  | subscripts {ts ss} : Der d .subs ts ss → Der d .subscripts (.lsquare :: (ts ++ [.rsquare])) ss
  | subsOne {ts s} : Der d .sub ts s → Der d .subs ts [s]
  | subsCons {ts s us ss} : Der d .sub ts s → Der d .subs us ss →
      Der d .subs (ts ++ .comma :: us) (s :: ss)
  | subAll : Der d .sub [.colon] .subAll
  | sub {ts e} : Der d .expr ts e → Der d .sub ts (.sub e)
  -- function-call-args
  | callNone : Der d .callArgs [.lpar, .rpar] []
  | callArgs {ts as} : Der d .args ts as → Der d .callArgs (.lpar :: (ts ++ [.rpar])) as
  | argsNamed {ts as} : Der d .named ts as → Der d .args ts as
  | argsOne {ts e} : Der d .expr ts e → Der d .args ts [.argExpr e]
  | argsFor {ts e us is} : Der d .expr ts e → Der d .forIndices us is →
      Der d .args (ts ++ .kFor :: us) [.argReduction e is]
  | argsCons {ts e us as} : Der d .expr ts e → Der d .nonFirst us as →
      Der d .args (ts ++ .comma :: us) (.argExpr e :: as)
  | nonFirstNamed {ts as} : Der d .named ts as → Der d .nonFirst ts as
  | nonFirstOne {ts e} : Der d .expr ts e → Der d .nonFirst ts [.argExpr e]
  | nonFirstCons {ts e us as} : Der d .expr ts e → Der d .nonFirst us as →
      Der d .nonFirst (ts ++ .comma :: us) (.argExpr e :: as)
  | namedOne {ts a} : Der d .namedArg ts a → Der d .named ts [a]
  | namedCons {ts a us as} : Der d .namedArg ts a → Der d .named us as →
      Der d .named (ts ++ .comma :: us) (a :: as)
  | namedArg {s ts e} : Der d .expr ts e →
      Der d .namedArg (.ident s :: .assign :: ts) (.argNamed s (.argExpr e))
  -- for-indices
  | forOne {ts i} : Der d .forIndex ts i → Der d .forIndices ts [i]
  | forCons {ts i us is} : Der d .forIndex ts i → Der d .forIndices us is →
      Der d .forIndices (ts ++ .comma :: us) (i :: is)
  | forIndex {s} : Der d .forIndex [.ident s] (.forIndex s)
  | forIndexIn {s ts e} : Der d .expr ts e →
      Der d .forIndex (.ident s :: .kIn :: ts) (.forIndexIn s e)

/-- No operator comes next, nor anything else that goes on with an expression. -/
def Ends (r : List Tok) : Prop :=
  ∀ t ∈ r.head?, t ∈ ([.kThen, .kElse, .kElseIf, .kFor, .comma, .rpar, .rsquare, .rcurly] : List Tok) ∨
    ∃ s, t = .other s

end Marco.Spec
