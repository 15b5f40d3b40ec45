# Formal model of marco's modelling core

This directory contains a Lean 4 model of parts of marco-compiler/marco (source
read as text from /repo; nothing in /repo is built or run) and machine-checked
proofs of the properties listed in `properties.jsonl`. `MANIFEST.json` maps every
property to the theorems that establish it.

## Trusted base

* Lean 4.33.0 kernel; Mathlib's proofs are re-checked terms, not trusted.
* Axioms: only `propext`, `Classical.choice`, `Quot.sound`. No own axioms, no
  `sorry`, no `native_decide`, no `bv_decide`. `AXIOMS.md` (by `scripts/axioms.py`) lists the
  axioms that each property theorem depends on.
* The faithfulness of the hand-written model: each definition cites the file and
  lines of /repo it models and says where it simplifies.

## Plan (written before the proofs)

| Property | What is modelled | How it is proved |
|---|---|---|
| C01 | point iterator of a box (odometer step), flatSize | step function refines the lexicographic enumeration; induction on rank |
| C02 | Range operations | linear integer arithmetic |
| C03 | MultidimensionalRange::subtract sweep | induction over dimensions |
| C04 | canBeMerged / merge | induction over dimensions |
| C05 | compare functions | order laws by induction |
| C06 | operator==(box, point) | false: witness; `_partial` for what does hold |
| C07, C08 | IndexSet insertion over the R-tree | invariant by induction over histories, any heuristic choice |
| C09 | setFromRanges | membership proved; disjointness false: witness |
| C10 | contains/overlaps | queue algorithm invariant, termination measure |
| C11 | intersect, complement, operator- | list-level refinement; the difference from C18 |
| C12 | projections/products | list-level refinement |
| C13 | getCompactRanges | each pass preserves points |
| C14 | operator== | refinement; emptied sets of different rank: witness |
| C15, C16, C17 | R-tree nodes, search, insert, split, bulk load | structural induction; bulk fan-out false: witness |
| C18 | remove | tree model where nodes have addresses; invariant over histories, any heuristic choice |
| C19 | DimensionAccess map vs affine expression | division false: witness; rest by structural induction |
| C20-C23 | access functions | induction over result lists |
| C24-C26 | MCIM groups | refinement to relation; negative results by witness |
| C27 | local matching solutions | enumeration model; negative results by witness |
| C28-C31 | Matchable, paths, filter | invariants over histories, all schedules |
| C32, C33 | dependency graphs | edge characterisation; scalar false: witness |
| C34 | LLVM post order on the graph with an entry node | DFS invariant |
| C35, C36 | scheduler directions | loop-order refinement; join laws |
| C37, C38 | getSCCs | simulation model; negative results by witness |
| C39 | Pantelides bookkeeping | history invariant; requests that are repeated are answered from the record |
| C40-C42 | VariableFilter lexer/parser/logic | round trip by induction over text; truncation: witness |
| C43, C44 | Modelica lexer, number lexers | induction over strings; witnesses for defects |
| C45 | parallelizeBlocks | Kahn invariant; in-degree multiplicity: witness |
| C46 | paths | order laws |
| C47 | inversion rules | field algebra, induction over nesting |
| C48 | derivative rules | `HasDerivAt`, induction over expressions |
| C49 | hash_value | consequence of C09/C14; witness |
| C52 | getPrintableIndices | element-wise; witness |
| C53 | box queries | induction over the dimensions |
| C54 | getSCCs | paths of the search are dependencies; negative result by witness |
| C55 | parseExpression and what it calls | induction on the depth of the calls; negative results by invariants of the grammar |
| C56 | parseExpression and what it calls | induction on derivations, with the tokens that may follow each symbol |
| C57 | parseExpression and what it calls | measure (tokens left, level of the symbol); negative results by witness |
| C58 | OperationLowerer, SubscriptLowerer | structural induction on trees; negative result by witness |
| C59 | ForStatementLowerer and the lowering of statements | structural induction on statements, induction on the iterations, frame lemma; negative results by witness and determinism |
| C60 | IfStatementLowerer, WhileStatementLowerer, AssignmentStatementLowerer, Break/Return | structural induction on statements, induction on executions of while |
| C61 | ArrayGeneratorLowerer | invariant of the traversal with two stacks, structural induction on constructors; negative results by witness |
| C62 | CallLowerer::getVectorizedResultTypes | induction on arguments and dimensions (least upper bound); negative results by witness |
| C63 | getVectorizationRank | refinement to the dimensions of C62; negative results by witness |
| C64 | BaseModelicaToCF | simulation in both directions (induction on executions; structural induction with strong induction on the number of steps); negative results by witness |
| C65 | Ops.cpp folds, BaseModelicaToArith | case analysis on types and operations over abstract IEEE arithmetic; rounding error bound for quotients; negative results by witness |
| C66 | Ops.cpp range folds, RangeSizeOpLowering | integer and rational arithmetic; exact characterisation of the right sizes; negative results by witness |
| C67 | Ops.cpp folds of functions | rounding error bound for quotients; negative results by witness |
| C68 | EquationAccessSplit | invariants of the two refinement loops (classes of elements, kinds of indices); negative result by witness |
| C69 | ScalarRangesEquationSplit, setIndices | sums over disjoint boxes; negative result by witness |
| C70 | SingleValuedInductionElimination, setIndices | bijection between a box and its reduction; negative result by witness |
| C71 | ForEquationLowerer, EquationSidesSplit, EquationInductionsExplicitation, EquationTemplatesCreation, BindingEquationConversion | multiset of scalar equations kept by each pass, induction over the nesting; negative results by witness |
| C72 | VariablesPromotion | induction over the components; negative result by witness |
| C73 | VariablesPromotion | multisets of matched elements; negative results by witness |
| C74 | VariablesPruning | reachability as a fixed point; negative results by witness |
| C75 | Ops (replacement of accesses) | composition with the inverse of the written access (C23); negative result by witness |
| C76 | SCCSolvingBySubstitution | semantics of equations in any domain, recursion over the cycle, invariant of the iterations; negative results by witness |
| C77 | VariablesDependencyGraph, FunctionDefaultValuesConversion, BaseModelicaToCF (order of creation) | post-order visit (C34) with null nodes as undefined behaviour; simulation of the cloned operations; uniqueness of the values; negative results by witness and in general |
| C78 | RungeKutta (tableaus) | order conditions for all rooted trees by a complete enumeration proved complete; quadrature on polynomials and Neumann expansion for linear systems in general; negative result by witness |
| C79 | RungeKutta (equations of the step) | execution in any admissible order satisfies the equations (last writer argument); componentwise refinement to a step of the method; negative results by an invariant over all orders |
| C80 | RungeKutta (estimate, acceptance, other variables) | same execution lemma; characterisation of the maximum; negative results by witness |
| C81 | EulerForward with ScheduleParallelization | refinement: each element is written once; the order of groups (C45) gives the exact result of all executions; negative result for all executions |
| C82 | canonicalization of TensorViewOp and TensorExtractOp | elements of a view as an inductive relation; induction on the chain of views; negative results by witness and in general |
| C83 | ViewAccessFolding | induction on the subscripts and on the chain of views |
| C84 | RangeBoundariesInference, BaseModelicaToTensor (views, insertions) | induction on subscripts and dimensions; exact result of the lowering of insertions |
| C85 | DerivativesMaterialization | invariants of the folds that collect and create; structural induction for the replacement; witnesses |
| C86 | DerivativesInitialization | invariant of the fold over the derivatives; composition with C85; witnesses |
| C87 | CallCSE | mutual structural inductions for comparison, renaming and replacement; invariant of the fold over the groups; witnesses |
| C88 | CallCSEEffect | the groups are the classes of an equivalence (invariant of the fold) |
| C89 | ReadOnlyPropagation | values of SSA regions are kept by each replacement (induction over the operations); measure for the end of the loop; witnesses |
| C90 | StartEquations | closed form of the block, kept by each insertion; order lemmas on the closed form; witnesses |
| C91 | AlgorithmConversion | executions agree on the variables that are read (induction over executions); determinism; witness |
| C92 | StartValues | membership in the lists of start operations, map over all of them; equivalence of the templates with the elementwise meaning; witnesses |
| C93 | FunctionInlining | simulation between the execution of the function and the evaluation of the copied operations; witnesses |
| C94 | RuntimeChecks | induction on the subscripts; the size of a range as the number of its elements; exactness of the domains against the real functions; witnesses |
| C95 | EquationFunctions | order of loop nests; execution of assignments where nothing read is assigned later; witnesses |
| C96 | ArrayLowering | sizes of the results from the sizes of the types; sums of the reductions; induction on the exponent; witnesses |
| C97 | Distribution | multiples of a value; mutual induction over the trees; witnesses |
| C98 | FunctionDerivative | simulation of the execution on a curve of arguments by the execution of the derived statements; induction over regular executions |
| C99 | IdaPartition | soundness and closure of the visits, which end because each adds a component; counting of the equations in groups by variable |
| C100 | IdaJacobian | the derivative is linear in the seeds; with unit seeds it is the partial derivative by C48 |
| C101 | IdaReplacement | each replacement splits the iterations of an equation by the equation that writes the element (partition of the iterations as multisets); termination by a weight: the sum over the elements read of B to the power of their rank |
| C102 | EquationAccesses | induction over the expression with the accesses of the subscripts collected on the way as a suffix of the position read; the access function built is described by what its dimension accesses denote, through the fake dimensions |
| C103 | EquationPaths | induction over the expression, on the model of C102: the accesses of an operand have paths that extend the one of the operand |
| C104 | Sparsity | the accesses of C102 with the values of their subscripts; an affine map without division computes these values, the image of the space (C22, C51) contains the element |
| C105 | RoundTrip | induction over ranges, dimensions and elements; the loop over a list carries the invariant that the reused variable has no points and the rank of what follows; equality from C14, insertion from C07 |
| C106 | DerivativesMap | induction over the history; the loops that read entries append to the map as the keys differ; for texts an invariant says what is in the map after some of the entries |
| C107 | SchedulersInstantiation | invariant of the module: executing the functions built so far gives a table whose names are in the symbol table; events are monotone in the wrappers and the table, so that what holds of a group still holds at the end |
| C108 | MatchingPass | the sums over equations and variables of the matched indices are disjoint unions; both orders of summation; masking of scalars is undone by a map |
| C109 | MatchedAccesses | the graph of the accesses satisfies `EdgesOk`; matches are incidences; membership in the writes and reads in terms of the pairs of the matching |
| C110 | SCCDetection | the views of the components are not empty; the clone for a view has the scalar equations of the view and the variables they write; sums over the views |
| C111 | Metadata | a switch gives the case with the value whatever the order of the cases; the compact ranges of the set of the printable elements (C07, C13, C52); the references into the vector survive exactly up to two elements |
| C112 | IndexReduction | invariant of the model (one derivative per variable, derivatives read only where derived, second derivatives only of first ones); the new derivative elements get the derivatives; the derived equations hold by C48 and uniqueness of derivatives |
| C113 | FunctionNames | invariant of the moves (symbols distinct, each path begins with a symbol of the module, the calls of the functions in the module name them); fresh names by C98's lemma |
| C114 | RecordInlining | subscripts of a component by position; hit sets of appended and padded subscript lists; induction over the path, the results and the order of the variables |
| C115 | ArrayMemory | the counter of indices as a number in mixed radix; loop nests as lists of positions; greedy choice of the kept dimensions with an offset of ones |
| C116 | ComponentReads | values as functions from indices to elements of the variable; induction over the path; views as functions on indices |
| C117 | CallArguments | induction over the arguments; the conversions are a parameter |
| C118 | ExternalCalls | the loop nests of C115 as folds of stores; places by rows are injective within the sizes; the external function is a parameter |
| C119 | ExternalLowering | the variables are a state, the parts of values a lens; each write is at a variable of one argument, as the variables are different |
| C120 | RawVariables | refinement of values by buffers: the buffers of the variables are different and not released, the values that are still fresh are in buffers that no assignment has touched |
| C121 | DeclParser | mutual induction over modifications, arguments and argument; the parser of expressions is a parameter with the hypothesis that it reads back what is written |
| C122 | EqParser | mutual induction over equations, lists of equations and branches; the parser of expressions is a parameter with the hypothesis that it reads back what is written |
| C123 | StmtParser | mutual induction over statements, lists, branches and else blocks; the parsers of the parts are parameters with the hypothesis that they read back what is written |

## Where the code does not do what the property says

Each of these is a theorem: the negation of the full claim (`*_false`), with a concrete input,
beside a `*_partial` theorem for what does hold.

| Property | Defect |
|---|---|
| C06 | `Range::operator!=(data_type)` combines its two tests with `&&`: the box `[5,7)` equals the point 5 |
| C07, C08 | `collapseNodeAndPropagate` pushes the destination of a relocated object on `nodesToCollapse` each time it has fewer than `minElements` objects, so a leaf may be there twice: the second time it has been destroyed (RTree.h:1093, 1057). A leaf gets there because the hook of the index sets merges objects. 26 insertions of rank 2 do it |
| C09 | `setFromRanges` compares a range with the trailing run of ranges overlapping it in some dimension and stops at the first that does not: `{[0,2),[0,10),[1,2)}` stores 1 twice, `size()` is 11 |
| C10 | `contains(set)` first compares the sizes: `{[0,10)}` does not "contain" that set |
| C13 | the compact ranges of such a set may overlap too |
| C14 | `operator==` compares the remembered ranks, also of empty sets |
| C17 | `setFromObjects` on 68 objects makes an inner node with a single child (minimum 4) |
| C11, C18 | `IndexSet::remove` collects the leaves to change first (IndexSet.cpp:318-323). When one of them is collapsed its objects go to other leaves; if a leaf that is still to be changed is split by that, one half of it is a new leaf that is not in the list, and keeps its points. 20 insertions of rank 1 and one removal do it; the assertion at the end of the function fails |
| C18 | a leaf scheduled by `collapseNodeAndPropagate` may become the root in the meantime; its objects are moved out (RTree.h:1060), the inner loop does nothing for a root, and the boundary of the empty node is computed (RTree.h:1127, 98-112). 18 insertions of rank 2 and two removals do it |
| C19 | `DimensionAccessDiv::map` truncates, the affine expression it exports rounds down: `d0 floordiv 2` at -1 |
| C20 | hence simplifying before mapping changes the result of `combine` |
| C22 | `RotoTranslation::map` maps a box result by result: `(i) -> (i, i)` gives the full square |
| C23 | `RotoTranslation::inverseMap` ignores the parent if invertible; `Constant::inverseMap` tests the containment the wrong way round |
| C24 | `MCIMGroupGeneric::set` inverts the access on the variable and adds whatever equation it finds; `MCIM::unset` drops every group whose `unset` returns false |
| C25 | `apply` keeps an equation only if all its variables are in the variable space |
| C26 | `operator+=` inherits the defect of `set`; `operator-=` ignores incidences held as points on the left and as a group on the right, and across different accesses removes keys with a common image |
| C27 | `VAFSolutions::fetchNext` increments the position twice, so the second access is skipped and `operator[]` loops; `getSolutionsAmount(AccessFunctionConstant)` maps the empty set and yields zero |
| C28 | `EquationVertex::setIndices` (Matching.h:546-550) uses the set after moving it |
| C30 | hence (C31) `match()` can return true for a matching in which an equation has two variables; `matchLeafNodes` dereferences an end iterator for a candidate whose only edge was taken by its partner |
| C31 | `filterCandidateAugmentingPaths` overwrites `newVisits[node]` when no accepted path has touched the node: a path through the same array vertex twice records only its last visit |
| C32 | by C22, an equation reading `x[i,i]` depends on the equation writing `x[0,1]` according to the graph |
| C33 | an equation reading `x[0:1]` has no edge to the equations writing `x[0]` and `x[1]` (the read set is compared with `==`) |
| C35 | `x[i] = x[(2i+1)/2]` is scheduled in any direction: the relative access is simplified as a floor division, the map truncates |
| C37 | with four array equations and identity accesses only, a scalar equation is put in two components (`addCycleAndSplit` makes one pass: when a later cycle splits a node of a cycle, the restriction of the other nodes of that cycle is not used to split the remaining cycles, and the assertion at line 383 fails); with several write accesses an index is lost; `for i in 0:2: x[i] = x[3-i]`, `x[3] = x[1]` makes `getEquationsCycles` recurse without end, as a cycle inside one array equation is never recorded |
| C38 | `x = y + z`, `y = x`, `z = x`: once a cycle is found its equations are visited, and the other cycle through `x` is not found |
| C39 | a variable whose indices are all differentiated is destroyed while it is still a key of `variableDerivatives`: a later vertex may get its address, and then is its own second derivative; the derivative of a variable differentiated as a whole is not recorded (Pantelides.h:160-186) |
| C40, C42 | `x[1:4294967295]` is read as `x[1:$]` (`parseArrayIndex` returns `int`) |
| C41 | the disabled filter hides derivatives; `/x/;x[1:2]` does not show `x[3]` |
| C43 | `x /*/ z */ y` lexes as `x z * / y`; `x /* y` lexes as `x` without error |
| C44 | `12else` is an error, `1.5else` loses the `e`; `1.1000000000000000000` overflows the normalizer |
| C45 | a block that reads two variables written by the same block is never put in a group and is executed before the groups (ScheduleParallelization.cpp:240-241: the degree counts accesses, the dependants are a set) |
| C48 | the derivative of `a ./ b` creates a PowEWOp with one operand; `x .^ 2` at `x < 0` needs `ln(x)` (so do second derivatives of acos, asin, atan, tan, tanh); `x ^ 0` at 0 |
| C49 | `hash_value` of the two equal sets of C09/C10 differ |
| C50 | `combine` drops the extra dimensions standing for the ranges of the first function |
| C51 | `AccessFunctionGeneric::map` with dependent iteration spaces falls through and appends the results once more |
| C52 | `x[1:9]` of a vector with five elements makes the indices 0 to 8 printable |
| C54 | `for i in 0:1: x[i] = y[0]`, `y[0] = x[0]`: the equation of `x[1]` is put in the component, though nothing depends on it |
| C55 | `a ^ b ^ c` and `(a b)` are accepted, the latter as `(a, b)` |
| C56 | `if a then b elseif c then d else e` is a syntax error; `.- a` and `.a` are undefined behaviour; `(a, )` is read as `a` |
| C57 | `a * - b`, and the end of the file after an operator: `parsePrimary` returns null and `parseFactor` dereferences it (an assertion in debug builds) |
| C58 | `a and b and c` is one node for the parser, and the lowering takes two operands: `c` is lost (an assertion in debug builds) |
| C59 | `for i in 1:2:5` goes from 1 to 2 with step 5 (ForStatementLowerer.cpp:75,129; the other lowerers take argument 1 as the step) |
| C59 | `for i in 1:2, j in 1:3` executes its body 2 + 3 times, and is rejected if the body uses both indices (ForStatementLowerer.cpp:54) |
| C59 | the limit of a `for` is evaluated before each iteration: a body that changes it changes the number of iterations |
| C61 | `{i for i in 1:3}` is rejected, or gives copies of a variable `i` if there is one; `{a, b}` with array variables gives an invalid operation; `{{1, 2}, {3}, {4, 5, 6}}` is accepted as `{{1, 2}, {3, 4}, {5, 6}}` |
| C62 | `f(2, v)` with a scalar and an array is rejected (an assertion, or a failure without diagnostic); a scalar is accepted as first argument where a vector is expected |
| C63 | no loop is created for a call with two 2 × 3 arguments: FunctionScalarization.cpp:64 reads the dimension `arg.index()` instead of `i` |
| C64 | in `if c then <loop, if, break or return> else ... end if` the operations of the `then` branch are left unconverted: BaseModelicaToCF.cpp:588 recurses on the `else` region only |
| C65 | `true > false` is folded to `true`, but the generated code compares `i1` as signed integers and computes `false`; the same for the other orders (BaseModelicaToArith.cpp, `arith::CmpIPredicate::sgt`) |
| C65 | `true + true` is folded to `true`, the generated code computes `false` |
| C65 | the cast of an `Integer` to `Boolean` is folded as `!= 0`, the generated code keeps the last bit; the cast of 1.0 is poison in the generated code |
| C65 | the folding of `+`, `-`, `*` and unary minus overflows (undefined in C++) where the generated code wraps |
| C65 | `<>`, `and`, `or` with a `NaN` are folded with `!=`, but run with an ordered comparison |
| C65 | `0.0 * x` is folded to 0 for every `x`, though it is `NaN` if `x` is infinite |
| C65 | a quotient with an `Integer` result is folded through `double` and loses the digits beyond 2^53 |
| C66 | the size of the empty range `1:2:0` is 1, that of `1:-5` is -5, both folded and at run time (Ops.cpp:418, BaseModelicaToArith.cpp:222-231) |
| C66 | the size of `1.0:2.0:0.0` is folded to 0 and is 1 at run time |
| C67 | `mod` of integers is folded through `double`: `mod(2^53 + 1, 2)` gives 0 (Ops.cpp:7124-7128); the same for `div` |
| C67 | the folding of `rem(x, -1)` is undefined for the smallest `Integer` (Ops.cpp:7175) |
| C67 | `2 ^ (-1)` has the type `Integer` and is folded to 0 (Ops.cpp:5225-5233) |
| C68 | an equation such as `x[i] = f(x[11 - i], x[5])` is split into pieces, some of which are matched with nothing; the assertion is compiled out (EquationAccessSplit.cpp:174-190) |
| C69 | `setIndices` takes the union of all write accesses (Ops.cpp:10036-10050), so the pieces `{3}` and `{8}` of `x[i] = f(x[11 - i])` are both matched with `x[3]` and `x[8]` |
| C70 | `setIndices` looks for the write accesses of the reduced template with the indices of the original equation (Ops.cpp:10030-10041): with `i` in `7:7` and `j` in `1:3` the equation matched with `x[i, j]` becomes one that is matched with nothing |
| C71 | the equations of `for i in 3:-1:1` are lost (EquationTemplatesCreation.cpp:151-155); with a negative step and a begin before the end the loop does not end |
| C71 | a `for` with the range `1:0`, or an array equation with a dimension of size 0, gives the range `[1, 1)`, which `Range` does not admit (EquationTemplatesCreation.cpp:146-149) |
| C72 | `y[i] = x[i]` is promoted to a parameter although only some elements of `x` are constant and the others are states (VariablesPromotion.cpp:465-490) |
| C73 | an equation of a promoted array stays in the main model if initial equations write all of its elements (VariablesPromotion.cpp:551-569) |
| C73 | the equation `x[0] = 0` of a promoted array, having no inductions, is erased without an initial equation replacing it (VariablesPromotion.cpp:616-617) |
| C74 | the parameter `p` of `x(start = p)`, if no equation reads it, is erased and the start attribute keeps referring to it (VariablesPruning.cpp:164-199) |
| C75 | constant subscripts of the written access are dropped, so `x[i, 5]` can be replaced by the equation for `x[i, 3]`; the callers have to exclude it (Ops.cpp:8608-8640) |
| C76 | if the cycles can't be solved, the clone of an equation for its remaining iterations stays in the SCC besides the equation (SCCSolvingBySubstitution.cpp:581-590, 645-650; whether the SCCs of the pipeline have such cycles was not established) |
| C76 | the clone is not considered after the next iteration, so that its cycles are not found (SCCSolvingBySubstitution.cpp:538, 603-616) |
| C76 | the test for equations that can't be made explicit has no effect (`continue` of the inner loop, SCCSolvingBySubstitution.cpp:550-561); equations made before a failure stay in the SCC (396-401); if no iteration reads what is written, an equation without indices is made (388-394) |
| C77 | `nodesByName[dependency]` makes a node without graph when the variable was not added; the visit then dereferences a null pointer (VariablesDependencyGraph.cpp:72, VariablesDependencyGraph.h:121-127). Reached by `input Real x; protected Real w = x;` (only the variables that are not inputs and have a default value are added, FunctionDefaultValuesConversion.cpp:326-333) and by `input Integer n; protected Real w[n];` (inputs are not added, BaseModelicaToCF.cpp:198-201) |
| C77 | a call with all its arguments named in an order other than that of declaration is not converted (only the numbers are compared, FunctionDefaultValuesConversion.cpp:101), and the lowering binds by position (BaseModelicaToFunc.cpp:305-322); CallLowerer.cpp:41-65 drops the names as well, after an assertion |
| C77 | only the `variable_get`s at the top level of a default value are replaced by the arguments (FunctionDefaultValuesConversion.cpp:108-121): inside a region the name is that of a variable of the caller; for dimensions they are not seen as dependencies (VariablesDimensionsDependencyGraph.cpp:14) |
| C78 | Cash-Karp: weight 250/521 for 250/621 (RungeKutta.cpp:286) and 13535/55296 for 13525/55296 (287); the weights do not sum to 1, and the error estimate never vanishes |
| C75 | a floor division in a subscript becomes a division that truncates (Dialect.cpp:545-604 with BaseModelicaToArith.cpp:1569-1579), so that the iteration is wrong for negative dividends |
| C79 | in the function for a slope only the state itself (for an array, only the element itself) has its stage value; other states and derivatives are read with their next values (RungeKutta.cpp:1063-1071), a read that the dependency graph does not see, and algebraic variables with their old values (1067-1069): systems of coupled equations are not integrated by the method |
| C79 | `replaceAllUsesWith(timeOp, increasedTime)` (RungeKutta.cpp:1735) also replaces the operand of the sum that `increasedTime` is: invalid IR for every derivative that depends on the time |
| C79 | the cloned equations of all derivatives are created once for each state (RungeKutta.cpp:1690-1760), so that with several states they are duplicated; the names `result`, `ind0`, … of the functions are not made unique (933-968); a state whose derivative is a state makes the pass fail (1647-1650) |
| C80 | the maximum of the errors is taken without absolute value (RungeKutta.cpp:1861-1884): a negative error gives the estimate 0 |
| C80 | `updateNonStateVariables` tests the wrong list (RungeKutta.cpp:1986): without states the equations are never scheduled |
| C81 | the blocks declare the derivative as read (EulerForward.cpp:255-265), so that the schedule parallelization puts the update of a derivative that is itself a state before the update of the state (x, der_x, der_der_x after the reduction of the index): the state is advanced with the derivative after the step, which is not the forward Euler method |
| C82 | views are merged by concatenation of their subscripts although a range keeps its dimension (Ops.cpp:537-573, 651-684): `x[2:3][1]` becomes an extraction with a range as index (invalid), and the first of two rows of a matrix becomes the first column of these rows, with the same type |
| C83 | `isSlicingSubscription` compares with the sum of rank and number of subscripts (ViewAccessFolding.cpp:25-30), so that every view with a subscript counts as slicing: the pattern for views is dead code, except for a view without subscripts of a view with a range, for which `secondSubscripts[pos++]` is out of bounds |
| C84 | the lowering of `TensorInsertSliceOp` starts at the end of a range with a negative step and keeps the negative stride (BaseModelicaToTensor.cpp:333-341): for 2:-1:0 the elements 0, -1, -2 are written instead of 2, 1, 0 |
| C85 | `collectDerOps` (DerivativesMaterialization.cpp:314-326) follows operands and not regions: the derivatives in a reduction are not found, the replacement of `sum(der(x[i]) for i in 1:n)` fails, or, if `x` is derived elsewhere too, the derived elements are not recorded; a derivative of a scalar in an algorithm builds a range without dimensions (302-312, 438-457), one of an array element marks the whole array as derived |
| C86 | consequence of the above: an element derived in a reduction only also gets the equation der = 0 (one equation too many), and an element marked because of an algorithm gets none |
| C87 | `buildEquivalenceGroups` (CallCSE.cpp:128-224) does not check that the paired inductions are a function of those of the representative: with `f(x[i], y[i])` as representative the call `f(x[a], y[b])` becomes `_cse[a, a]`; `areExpressionOperandsEquivalent` (EquationExpressionOpInterfaceImpl.cpp:92-102) never compares arguments of reductions, so `f(sum(A[k, k] for k, l))` and `f(sum(A[k, l] for k, l))` become one variable; the results of calls as operands are not compared either; a call in a reduction is cloned out of the region (invalid IR); a template with several ranges is collected once per range and its calls are replaced twice (use after free) |
| C89 | `ReadOnlyVariablesPropagation.cpp:105-109` loops for ever when a binding equation reads its own variable other than in its first operation (`parameter Real a[2] = {1, a[1]}`); reads of propagated variables are left when a binding equation is copied before its own reads have been replaced (`c = b; b = a; a = 1`), so the result depends on the order, and on the threads, of which some read the regions that others modify (lines 76-125, the data race is not modelled) |
| C90 | `Scheduling.cpp:506-543` does not look at what start equations read from one another: `Real x(start = y); Real y(start = 1)` sets `x` before `y`; an SCC reading a variable that only a start equation sets is not ordered after it (SCCBridge.cpp:44-178 follows only the SCCs computing the same variable); without SCCs the pass returns early (line 198) and leaves the start equations in reverse order of the file; on cycles there is only a warning, and the start value overwrites the computed one |
| C91 | `ModelAlgorithmConversion.cpp:96-122` copies the start values of the assigned variables into the function, which declares only the variables of the algorithm: `parameter Real p; Real x(start = p); algorithm x := x + 1;` gives a function that reads the undeclared `p` |
| C92 | `Modification.cpp:310` takes `fixed = false` as the default also for parameters: `parameter Real p(start = 5)` has no initial equation, so that another one may determine `p` |
| C92 | `ExplicitInitialEquationsInsertion.cpp:87-163` creates an equation for each fixed `StartOp`: `parameter Real p(start = 5, fixed = true) = 3` has the initial equations `p = 3` and `p = 5` |
| C92 | `ModelLowerer.cpp:195` reads `fixed` only if there is a `start`: `Real x(fixed = true)` is not initialized to zero |
| C92 | `Modification.cpp:313-324` takes `each` from the first modification, not from `start` |
| C93 | `PureFunctionInlining.cpp:752` copies the default values as they are: a default value that reads another input reads the variable of the caller with that name |
| C93 | `PureFunctionInlining.cpp:701-706` ignores the subscripts of an assignment: `y[1] := v` replaces the whole `y` |
| C93 | `PureFunctionInlining.cpp:708` copies regions as they are: the variables of the function read inside them become those of the caller; a `return` is copied into the caller |
| C93 | `PureFunctionInlining.cpp:735-755` handles only the default values of the inputs: those of outputs and protected variables are dropped, and null values are used |
| C93 | `PureFunctionInlining.cpp:553-573`: a function without inputs has no entry in the orderings, `get` dereferences the end iterator |
| C93 | `PureFunctionInlining.cpp:768-771` takes the arguments by position although the call has names |
| C94 | `RuntimeVerifiableOpInterfaceImpl.cpp:272-278` checks only the size of a range: `x[2:4]` of three elements (from 0) passes |
| C94 | `RuntimeVerifiableOpInterfaceImpl.cpp:190-217` does not check the bounds of the subscripts of an insertion |
| C94 | `RuntimeVerifiableOpInterfaceImpl.cpp:197-199` does not advance the dimension of the source for an unbounded range: valid insertions are stopped, and dimensions of the destination that do not exist are read at 234-235 |
| C94 | `RuntimeVerifiableOpInterfaceImpl.cpp:97-98` reads beyond the indices of a `SubscriptionOp` with fewer indices than dimensions |
| C95 | `EquationExplicitation.cpp:389-395`: a backward loop maps the induction `i` to `upper - (i - lower)` although the upper bound is exclusive (the loop at 371-374, `BaseModelicaToFunc.cpp:173`): the first index is never computed, and the element after the last one is written |
| C95 | `BaseModelicaToFunc.cpp:164-178` calls the ranges of an equation in the order of the index set, whatever the directions: elements are read before they are computed |
| C96 | `BaseModelicaToLinalg.cpp:896-900`, `966-970`, `1082-1086`: `linalg.dot`, `linalg.vecmat` and `linalg.matmul` add to their output, which is a `tensor.empty`: the products of vectors and matrices add what the memory contains |
| C96 | `BaseModelicaToLinalg.cpp:1556-1557`: the power of a matrix starts from a matrix of ones in place of the identity |
| C96 | `BaseModelicaToLinalg.cpp:959-960`: the unknown size of the product of a vector and a matrix (and of a matrix and a vector, which becomes one) is taken from the wrong dimension of the matrix |
| C96 | `Ops.cpp:3782-3862`: no type is inferred for the product of an array by a scalar on the right; the compiler stops |
| C96 | `BaseModelicaToLinalg.cpp:482-532`, `791-849`, `1171-1221`, `1261-1323`: an integer scalar is not cast to the type of the array of reals, the operations are invalid |
| C96 | `BaseModelicaToLinalg.cpp:707-711`, `770-774`, `1438-1442`, `1501-1505`: the destination keeps the type the array had before the cast, the operations are invalid |
| C96 | `BaseModelicaToLinalg.cpp:1325-1394`, `1261-1323` and `Ops.cpp:4822-4894`: the quotient of integers is rounded towards zero |
| C96 | `Ops.td:1716-1717`: the product has the trait `Commutative`, a constant factor goes to the right: the product of a constant scalar and an array is not converted any more, a constant matrix is multiplied from the wrong side |
| C97 | `Ops.cpp:4739-4753`, `5052-5066`: a factor is distributed over a quotient by dividing the divisor by it: `(x / (y + z)) * 0` becomes `x / (y / 0 + z / 0)` |
| C97 | `Ops.cpp:3953-3965`: a left factor is distributed over the right one, but put on the right of its operands: wrong for matrices, and without a type for a number and an array |
| C97 | `Ops.cpp:5104-5118`: the divisor of an element-wise quotient is multiplied by a number on the right, for which there is no type if it is an array |
| C97 | `Ops.cpp:4308-4347`: the element-wise product is distributed as a product (there is no pass that does it) |
| C98 | `AutomaticDifferentiation.cpp:202-209`, `221-225`: the seed is chosen by the position among all the variables, but there are seeds for the inputs only: with an output or a protected variable before the input the derivative is 0 or that with respect to another input |
| C98 | `ForwardAD.cpp:119-132`: default values are not derivable, and become assignments only later (`lib/Frontend/FrontendActions.cpp:866`, `1030`): the derivative of a protected variable with a default value is not initialized |
| C98 | `ForwardAD.cpp:107-111`: the new variable of `x` is called `pder_x_<number>`, which may be the name of another variable |
| C99 | `IDA.cpp:1966-1985`, `2094-2111`: a variable that is both a state and a derivative (`der(der(x))`) gets only one of the two roles: without reduced systems it is a state that no equation determines, with them its own derivative is not tied to it |
| C100 | `IDA.cpp:1369-1375`, `1461-1465`: a parameter or constant called `out` (or `ind0`, ...) is taken for the output (or induction) variable of the function that is differentiated: the Jacobian then depends on a value that is not initialized |
| C101 | `IDA.cpp:653-669` with `Ops.cpp:8454-8487`: a scalar equation that reads an element written by an equation with a subscript such as `2 * i` is dropped, without an error: IDA gets fewer equations than variables |
| C102 | `Dialect.cpp:413-416`: the access of a range subscript `x[2:4]` excludes the last element of the range, as the upper bound of the attribute is inclusive and the one of `Range` is not; `EquationExpressionOpInterfaceImpl.cpp:322`: the same for the iterable of a reduction with bounds of type Real |
| C102 | `EquationExpressionOpInterfaceImpl.cpp:304`: for the second and further integer iterables of a reduction an empty set is appended, which makes the whole space empty; the access then asserts, or (third iterable) the first induction has the range of the third one |
| C102 | `EquationExpressionOpInterfaceImpl.cpp:638-672`: subscripts of a slice, `x[2:4][i]`, give an access with one subscript for the slice and one for its element, of a rank greater than that of the variable |
| C103 | `Ops.cpp:8263-8294`: `getAccessAtPath` starts without the inductions of the enclosing reductions, so the path of an access that `getAccesses` found within a reduction gives no access (`getDimensionAccess` fails) |
| C103 | `EquationExpressionOpInterfaceImpl.cpp:638-672` and the like: a subscription searches its source with its own path, though the source is its operand 0; the path of `y` in `(x + y)[i]` leads to `i`, that of `x` in `Real(x)[i]` to the whole array |
| C104 | `IDA.cpp:1018-1019`: the image of the iteration space under an access that is not affine; a scalar equation has an empty one, so `y = sum(x[2 * j] for j in 1:3)` is taken not to depend on `x` |
| C104 | `SCCSolvingWithKINSOL.cpp:1376-1387`: `getAffineMap` without `isAffine`; undefined for an equation with a reduction over the elements of a variable of KINSOL (IDA has the check) |
| C104 | `Dialect.cpp:589-600`, `materializeAffineExpr`: a floor division becomes `DivOp`, which rounds towards zero; wrong for negative dividends |
| C105 | `BaseModelica/IR/Properties.cpp:207-229` and `Modeling/IR/Properties.cpp:220-242`: the element is parsed into a variable declared before the loop, and used again after `std::move`; a moved index set keeps its rank, so in `[<@x, {[0,3]}>, @y]` the scalar `y` is read with an empty set of rank 1, which is not equal to what was written, and arrays of two ranks reach the rank assertion |
| C105 | `BaseModelica/IR/Properties.cpp:28-40` and `92-95`: a default constructed `Variable` is written as `{}`, which `setFromAttr` rejects, and as bytecode with a null attribute |
| C105 | `Modeling/IR/Properties.cpp:136-152` and `29-41`: an index set that lost its points is written without its rank and read back as a different set |
| C106 | `DerivativesMap.cpp:409-413`: `setDerivative` leaves the entry of the former derivative in `inverseDerivatives`; `getDerivedVariable` then answers for a variable that is no derivative any more |
| C106 | `DerivativesMap.cpp:190-196`: `hash` depends on the order of insertion, `operator==` does not, so equal maps have different hashes |
| C106 | `DerivativesMap.cpp:344-364`: the comparison given to `llvm::sort` is no strict weak order (`a` is equivalent to `a::b` and to `a::c`) |
| C106 | `DerivativesMap.cpp:337-381`: indices of a variable without a derivative are not printed, so such a map is not read back |
| C107 | `SchedulersInstantiation.cpp:241`: a call of a scalar equation has no indices, so its size is 0, and `hasSingleScalarEquationCall` is false of it: a group with one scalar equation gets a scheduler |
| C107 | `SchedulersInstantiation.cpp:353`: `sortFn` ends with `<=`, so it holds of an element and itself and is no strict weak order, which is undefined behaviour in `llvm::sort` |
| C108 | `Matching.cpp:154, 169`: without equations the numbers of equations and unknowns are not compared, so a model with only unknowns passes |
| C108 | `EquationBridge.cpp:168-174`: an equation with induction variables and an empty set of indices counts as one scalar equation and becomes the equation of index 0 |
| C109 | `Matching.cpp:336-363`: the matches of an equation with a variable are put in one instance although they are along different accesses; `for i in 1:2 loop x[i] + x[i+2] = 0`, `x[2] = 1`, `x[3] = 1` has a single perfect matching, and its instance has no write access (`Ops.cpp:8196-8217`) |
| C109 | `Ops.cpp:8219-8240`, `getReadAccesses`: in `x[i] = 2 * x[4-i] + y` the mirrored access lies within the matched indices, so it is taken as a write and the dependencies on the other elements are lost |
| C110 | `Ops.cpp:10015-10056`, `setIndices` computes the matched indices of a clone again, and the writes and reads depend on them: with the indices 1 and 2, `a[i] = 2 * a[3-i]` loses its read of the other element, which it has with the indices 0, 1 and 2 |
| C111 | `BaseModelicaToRuntime.cpp:712-716`: the positions of the derivatives count the reserved variables (`__a`), all other tables skip them, so `getDerivative` gives the number of another variable or of none |
| C111 | `RuntimeModelMetadataConversion.cpp:621-639`: `caseOperandsRefs` points into elements of `caseOperands`, which are moved when the vector grows; with three or more printable ranges for a variable (`x[1],x[3],x[5]`) destroyed elements are read (freed memory from the sixth range on) |
| C112 | `ForwardAD.cpp:158-163`: the zero derivatives are given to the induction variables of the old template, but the operations that are derived read those of the new one; every equation with an operation on an induction variable, also the addition of -1 in the subscript of each `x[i]` (`SubscriptLowerer.cpp:29-39`), cannot be differentiated: nullptr, used at `Pantelides.cpp:312` |
| C113 | `FunctionMangling.cpp:30-42` mangles the functions and the calls but not the function names in the `inverse` attribute, which `InvertibleOpInterfaceImpl.cpp:474-478` calls later: no inverse function is ever found |
| C113 | `FunctionUnwrap.cpp:62` creates the moved function without the attributes of the old one: the `inverse` annotation (and `derivative`, `inline`) of functions in packages is lost |
| C113 | `FunctionMangling.cpp:21` uses the same prefix as the runtime functions (`Mangling.cpp:10`): a user function `sin_f64_f64` takes the name of the runtime function, whose declaration is then renamed by the symbol table |
| C114 | `RecordInlining.cpp:316`: the new path begins with the second component of the old one, so the assignment of a record in a record goes to a variable named like the component |
| C114 | `RecordInlining.cpp:697`: the new `VariableGetOp` is not added to `symbolUsers`, so a read of a component of a record in a record keeps reading the variable that is erased |
| C114 | `RecordInlining.cpp:258-273`: one amount for a path of two components; the assignment of an array of records reads the second amount outside of the array (`Ops.cpp:1797-1799`) |
| C114 | `RecordInlining.cpp:740-755`: the rank is put before the amounts of all the components, also the first: `r[1].s[2].x := v` sets `r.s.x[1, :, 2]`, and `r[1].s.t.x := 0` takes a slice outside of the subscripts |
| C114 | `RecordInlining.cpp:879-902`: the counter of the new results is not moved by the components of the records: in `(r, z) = f(x)` the use of `z` becomes the first component of `r` |
| C115 | `BaseModelicaToMemRef.cpp:372-388`: a `do` loop: an array with a dimension of size 0 reads the first of no values |
| C115 | `BaseModelicaToMemRef.cpp:514-515` with `TypeConverter.cpp:67-71`: the view is cast to a `memref` with offset 0 and the strides of its sizes; unless the cast is folded away, a row other than the first is not defined |
| C115 | `BaseModelicaToMemRef.cpp:505-508` with `Ops.cpp:1269-1275`: a constant range gives a static size, the subview has a dynamic one; together with an index the rank reduction fails its assertion |
| C115 | `Ops.cpp:1186-1215`: subscriptions are merged by putting the subscripts one after the other also if the first has ranges: `a[1:3][0]` becomes `a[1:3, 0]` |
| C116 | `ComponentReferenceLowerer.cpp:128-144`: the ranges for the dimensions without subscripts are put before the subscripts: `r.x[i]` with `x` of rank 2 is the column `i` |
| C116 | `ComponentReferenceLowerer.cpp:117-144`: for a component in the middle no ranges are put before the subscripts: in `a.b[i].x` with `a` an array the index is used for `a` |
| C117 | `CallLowerer.cpp:41-66`: the names of the arguments are computed, asserted to be absent, and then dropped: in a release build `f(y = 1, x = 2)` gives 1 to the first parameter |
| C117 | `CallLowerer.cpp:51-56`: a call that leaves out a parameter with a default value is refused, so that the missing arguments that `FunctionDefaultValuesConversion` computes never occur |
| C117 | `CallLowerer.cpp:78-97`, `RecordInlining.cpp:987-990`: the number of arguments of a record constructor is not checked, and with fewer arguments than components the operands are read out of bounds |
| C117 | `CallLowerer.cpp:249-257, 292-295`: the names of the arguments without name are taken from the `input` components, of which a record has none: undefined behaviour for `R(1, b = 2)` |
| C117 | `ExplicitCastInsertion.cpp:84-97`: the arguments of a call with names are compared with the types of the parameters in the order of the declarations, and the new call has no names |
| C118 | `BaseModelicaToFunc.cpp:571-643`: the copy back is done for all arrays, also those that are only read: an Integer array with a value beyond 32 bits is changed by the call |
| C118 | `BaseModelicaToFunc.cpp:463-480`: the pointer of an array whose elements need no conversion does not take the offset and the strides into account: for a slice the function receives the beginning of the buffer |
| C118 | `BaseModelicaToFunc.cpp:520-525`, `BaseModelicaToArith.cpp:127-130`: a Boolean result of C is truncated to one bit: 2 becomes false |
| C118 | `BaseModelicaToFunc.cpp:339-340`, `BufferizableOpInterfaceImpl.cpp:239-241`: the attribute `language` is lost, and calls of functions in other languages are made as those of C |
| C118 | `BaseModelicaToFunc.cpp:660-665`: a second call of the same external function with other types uses the declaration of the first |
| C119 | `StandardFunctionLowerer.cpp:316`: the test is for the type of the variable, not that of the argument: for `F(y[1])` with an output array `y` the element is passed as a value and what the function writes is lost |
| C120 | `BaseModelicaToFunc.cpp:904-915,1113-1116`: an array whose dynamic dimensions are all given by expressions (`protected Real w[n]`) is allocated without the sizes, and the verification of the allocation fails |
| C120 | `BaseModelicaToFunc.cpp:968-976`: with both `:` and an expression among the dimensions, the size of the expression is ignored and the array is created with size zero |
| C120 | `BaseModelicaToFunc.cpp:917-922,1031-1050`: the reading of an array makes no copy: after an assignment to the variable the value read before is the new one, or in released memory for an array with `:`. Whether it is reached depends on the copies that the bufferization inserts, which are not modelled |
| C121 | `Parser.cpp:1932-1934` (`parseArrayDimension`): a dimension that begins with an integer is taken to be that integer: `Real[2 * n] x` is refused |
| C121 | `Parser.cpp:509-518`: `redeclare` and `replaceable` in a modification reach `llvm_unreachable` instead of a diagnostic |
| C122 | `Parser.cpp:998` (`parseWhenEquation`): `end if` is expected after a `when` equation: `when … end when` is refused, and `when … end if` is accepted |
| C123 | `Parser.cpp:1022` (`parseWhenStatement`): `loop` is expected after the condition of a `when` statement instead of `then` |
| C123 | `Parser.cpp:662-664` (`parseStatement`): the arguments of a call are parsed also if there are none: the statement `f();` leads to a null pointer (see C57) |
| C123 | `Parser.cpp:526-533` (`parseAlgorithmSection`): `initial` does not end an algorithm section: `algorithm … initial equation` is refused |

## What is modelled

* `lib/Modeling/Range.cpp`, `Point.cpp`, `MultidimensionalRange.cpp`: everything except printing and
  hashing. Bounds are unbounded integers (no wrap-around).
* `include/marco/Modeling/RTree.h`: nodes, searches, `setFromObjects`, `isValid`
  (`Verif/Model/RTree.lean`).
* The in-place updates of RTree.h and of `IndexSet` (`insert`, `adjustTree`, splitting, collapsing, `remove`):
  `Verif/Model/RTreeUpdate.lean`. Pointers to nodes are identities; using one that is no longer in the tree is
  undefined behaviour. Splitting is modelled for the heuristics of the library and, in C16, for every choice.
  Not modelled: `s -= s`, which holds references into the nodes it changes. Side findings: a leaf cut
  into many pieces by `remove` is split once, so a node may keep more than the maximum; inner nodes that
  bulk loading leaves with too few children make `chooseDestinationNode` look at an empty list.
* `lib/Modeling/IndexSet.cpp`: construction, queries, operations returning new sets, compaction, hash
  (`Verif/Model/IndexSet.lean`). The iterators over ranges and points are modelled step by step
  (`Verif/Model/PointIterator.lean`, C08); elsewhere they are the sequences they produce.
* `lib/Modeling/DimensionAccess*.cpp`, `AccessFunction*.cpp`: evaluation, affine conversion, `combine`,
  `inverse`, `map`, `inverseMap` (`Verif/Model/DimensionAccess.lean`, `AccessFunction.lean`). MLIR's affine
  simplifier is not in the repository: theorems quantify over every `Simplifier`, a function that preserves
  the value of expressions and introduces no division.
* `lib/Modeling/MCIM.cpp`, `MCIMGroup*.cpp`: groups, `get`, `set`, `unset`, `apply`, sum, difference,
  flattening, filters (`Verif/Model/MCIM.lean`). Not modelled: `withSpace`, `setEquationSpace`,
  `setVariableSpace`, printing.
* `lib/Modeling/LocalMatchingSolutions*.cpp`, `MCIM::splitGroups`: generators, `fetchNext`, `operator[]`
  (`Verif/Model/LocalMatching.lean`). A generator is the list of the matrices it still has to yield; the
  sorting of the accesses is not modelled (its comparison function is not an order).
* `include/marco/Modeling/Matching.h`, `lib/Modeling/Matching.cpp`: Matchable over the index set model
  (`Verif/Model/Matchable.lean`); leaf simplification, search, filter, `applyPath`, `applyHK`, `match`
  (`Verif/Model/MatchingGraph.lean`) over finite sets of scalar incidences, for every local solver and every
  thread schedule. Not modelled: scalarization of the graph, printing.
* `include/marco/Modeling/Scheduling.h`: choice of the directions of a single-equation component
  (`Verif/Model/Scheduling.lean`).
* `EquationPath`, `EquationExpressionPath` of the BaseModelica dialect (`Verif/Model/EquationPath.lean`).
* `Model/Explicitate.lean`: inversion interface, `explicitate`, distribution and grouping (Ops.cpp,
  InvertibleOpInterfaceImpl.cpp), on expression trees over a field. Side findings (examples in C47): the
  last test of `getMultiplyingFactor` is on an `optional<bool>` that always has a value, so a coefficient
  depending on another variable makes the grouping fail; a coefficient that is an induction variable
  dereferences a null operation.
* `Model/Derivative.lean`: `createDerivative` of the scalar operations (DerivableOpInterfaceImpl.cpp);
  reals instead of floating point.
* `Model/Lexer.lean`: the state machine of the Modelica lexer (StateMachine.cpp, IntegerLexer.h,
  FloatLexer.h), characters in, tokens out; source positions are left out, floating-point values are
  exact rationals, signed overflow is undefined behaviour. Side finding: after `1.` the next character
  is lost if it is not a digit (`1.;`).
* `Model/VariableFilter.lean`: lexer, parser and queries of the variable filter (lib/VariableFilter), and
  `getPrintableIndices` (BaseModelicaToRuntime.cpp). Regular expressions are parameters.
* `Parallelize` — `parallelizeBlocks` and `WritesMap::getWrites` (the R-tree as the list of its
  entries). The chunking of the blocks in `processInitialOp` / `processDynamicOp` is not modelled.
* `include/marco/Modeling/ArrayEquationsDependencyGraph.h`, `ScalarEquationsDependencyGraph.h`: writes
  maps and edges (`Verif/Model/DependencyGraph.lean`), for every processing order of the threads; the
  R-tree of the writes map is the list of its entries.
* `include/marco/Modeling/SCCsDependencyGraph.h`, `SingleEntryWeaklyConnectedDigraph.h`, `postOrder`
  (`Verif/Model/PostOrder.lean`). `llvm::post_order_ext` is modelled from its definition.
* `include/marco/Modeling/Pantelides.h`: `addVariableDerivative`, `addEquationDerivative`,
  `differentiateVariable`, `differentiateEquation`, with the functions of the BaseModelica pass that make the
  derivatives (`Verif/Model/Pantelides.lean`). A request carries the address the allocator would return. The
  search that decides which requests are made is not modelled: the theorems are about every history.
* `include/marco/Modeling/DependencyGraph.h`: `getSCCs`, `getEquationsCycles`, the restriction of the paths, the
  splitting of the cycles, with `getWritesMap` of ArrayEquationsDependencyGraph.h (`Verif/Model/Cycles.lean`).
  Index sets are finite sets of points here, and access functions are given by what each point accesses; the
  recursion has a depth, and a theorem says which depth is enough. `llvm::scc_iterator` is given by its
  specification (`IsSCCs`); the components of the array graph are given, in any order. The keys of `partitionsMap`
  are compared as sets of points.
* `lib/Parser/BaseModelica/Parser.cpp`: `parseExpression` and everything it calls, function by function
  (`Verif/Model/ExprParser.lean`). The input is a list of tokens (the lexer is not modelled), positions and texts
  of diagnostics are left out. The depth of the calls is bounded, and `C57_bound` says that the bound does not
  matter. The grammar (`Verif/Spec/Grammar.lean`) is that of the Modelica Language Specification without
  matrices, `end`, partial application and `initial()`, for which the trees have no node.
* `lib/Codegen/Lowering/OperationLowerer.cpp`, `SubscriptLowerer.cpp`: `Verif/Model/OperationLowerer.lean`. Nodes
  that are not operations or subscripts are leaves with one value. Both branches of an `if` expression are
  evaluated; side effects and errors of evaluation are not modelled.
* `lib/Codegen/Lowering/*StatementLowerer.cpp`: `Verif/Model/Statements.lean`. Variables are scalars with integer
  values; expressions use any binary operator. Assignments to several destinations or with subscripts, calls and
  `when` are left out. What the created operations do is in `Verif/Spec/Execution.lean`, from their descriptions
  in `Ops.td`; operations after a terminator, which the verifier of the dialect rejects, are taken as not executed.
* `lib/Codegen/Lowering/ArrayGeneratorLowerer.cpp`: `Verif/Model/ArrayConstructors.lean`, with scalar expressions and
  array variables as leaves and constant ranges. When an operation is valid is in `Verif/Spec/ArrayValues.lean`,
  from the verifiers of the dialect.
* Vectorized calls: `CallLowerer::getVectorizedResultTypes` and `getVectorizationRank` of FunctionScalarization.cpp
  (`Verif/Model/Vectorization.lean`). Only dimensions are modelled, not the types of the elements or the rewriting.
* `lib/Codegen/Conversion/BaseModelicaToCF/BaseModelicaToCF.cpp`, `createCFG` and `recurse`:
  `Verif/Model/ControlFlow.lean`, with one operation in each block. The execution of blocks is in
  `Verif/Spec/ControlFlow.lean`. The creation of variables and the replacement of symbols are not modelled.
* `lib/Dialect/BaseModelica/IR/Ops.cpp`, the `fold` functions of the arithmetic, comparison and Boolean operations and of `CastOp`:
  `Verif/Model/Folding.lean`, for scalars of type `Boolean`, `Integer` (64 bits) and `Real`. The arithmetic on `double` is a
  parameter (`Floats`); what is assumed of it where needed is `Spec.Ieee` (`Verif/Spec/Arith.lean`), and `Verif/Lemmas/WideFloats.lean`
  shows that the assumptions are consistent. The sign of zero is not observed.
* `lib/Codegen/Conversion/BaseModelicaToArith/BaseModelicaToArith.cpp`, the patterns for the same operations:
  `Verif/Model/ArithLowering.lean`. The meaning of the `arith` operations is in `Verif/Spec/Arith.lean`.
* `lib/Dialect/BaseModelica/IR/Ops.cpp`, the `fold` functions of the ranges, and the parts of `AddOp::fold` and `SubOp::fold` on ranges;
  `BaseModelicaToArith.cpp`, `RangeSizeOpLowering`: `Verif/Model/Ranges.lean`, with `index` as 64 bits. The elements of a range are
  defined in `Verif/Spec/Ranges.lean`.
* `lib/Dialect/BaseModelica/IR/Ops.cpp`, the `fold` functions of the mathematical functions on integers and of `PowOp`:
  `Verif/Model/MathFunctions.lean`. The functions of the C library are a parameter; what is assumed of them is `Spec.MathLaws`, in
  particular that `std::pow` is exact where the result is a `double`, which the C standard does not promise. Not modelled: arrays, and
  the canonicalization patterns (`x ^ 0` is replaced with the scalar 1 even if `x` is a matrix, Ops.cpp:5195-5203).
* `lib/Dialect/BaseModelica/Transforms/EquationAccessSplit.cpp`, `ScalarRangesEquationSplit.cpp`, `SingleValuedInductionElimination.cpp`
  and `EquationInstanceOp::setIndices`: `Verif/Model/EquationSplit.lean`. An equation is a function of its induction variables, with
  its accesses; index sets are finite sets, except where the pass goes through the stored ranges, which are a parameter.
* `lib/Codegen/Lowering/ForEquationLowerer.cpp` and, in `lib/Dialect/BaseModelica/Transforms`, `EquationSidesSplit.cpp`,
  `EquationInductionsExplicitation.cpp`, `EquationTemplatesCreation.cpp`, `BindingEquationConversion.cpp`: `Verif/Model/EquationTemplates.lean`.
  An expression is a function of the inductions and the subscripts. Not modelled: the cloning of operations and the erasure of the old ones.
* `lib/Dialect/BaseModelica/Transforms/VariablesPromotion.cpp`: `Verif/Model/Promotion.lean`; `VariablesPruning.cpp` and
  `ArrayVariablesDependencyGraph.h`: `Verif/Model/Pruning.lean`. The strongly connected components are a parameter of the model of the
  first (C11), reachability replaces them in that of the second. Of a body only the accesses and whether it uses the time are kept.
* `lib/Dialect/BaseModelica/IR/Ops.cpp` (replacement of accesses) and `IR/Dialect.cpp` (materialisation of affine maps):
  `Verif/Model/Substitution.lean`; `Transforms/SCCSolvingBySubstitution.cpp`: `Verif/Model/CycleSolving.lean`. Expressions are trees between
  scalars, without reductions; the explicit forms (C47), the search for cycles (C37) and the stored ranges are parameters.
* `lib/Dialect/BaseModelica/IR/{VariablesDependencyGraph,DefaultValuesDependencyGraph,VariablesDimensionsDependencyGraph}.cpp`,
  `Transforms/FunctionDefaultValuesConversion.cpp` and the order of creation of BaseModelicaToCF.cpp: `Verif/Model/DefaultValues.lean`. Operations
  are opaque, with one result; the calls inside default values, and the order in which the calls are completed by several threads, are not modelled.
* `lib/Dialect/BaseModelica/Transforms/RungeKutta.cpp`, the tableaus: `Verif/Model/ButcherTableau.lean`, with rational numbers for doubles.
* `lib/Dialect/BaseModelica/Transforms/RungeKutta.cpp`, the generated equations: `Verif/Model/RungeKutta.lean`. The equations are explicit (C29, C30),
  the generated operations are modelled by the values that they compute; the order of computation is any that respects the visible accesses.
* `lib/Dialect/BaseModelica/Transforms/EulerForward.cpp`, the update of the states: `Verif/Model/EulerForward.lean`, on top of the model of the schedule
  parallelization. `updateNonStateVariables`, which gets all components of the main model, is not modelled.
* `lib/Dialect/BaseModelica/IR/Ops.cpp` (views and extractions), `lib/Dialect/BaseModelica/Transforms/ViewAccessFolding.cpp`,
  `lib/Dialect/BaseModelica/Transforms/RangeBoundariesInference.cpp`, `lib/Codegen/Conversion/BaseModelicaToTensor/BaseModelicaToTensor.cpp` (views and
  insertions of slices): `Verif/Model/TensorViews.lean`. The semantics of `tensor.extract_slice` and `tensor.insert_slice` are part of the specification.
* `lib/Dialect/BaseModelica/Transforms/DerivativesMaterialization.cpp`, `lib/Dialect/BaseModelica/Transforms/DerivativesInitialization.cpp`:
  `Verif/Model/DerivativesMaterialization.lean`. The processing is sequential; the code processes equations in parallel under locks (two instances of one
  template change the same template, which is not modelled).
* `lib/Dialect/BaseModelica/Transforms/CallCSE.cpp`, with `isEquivalent` of `EquationExpressionOpInterfaceImpl.cpp`: `Verif/Model/CallCSE.lean`. Expressions
  are trees with numbered calls; arguments of calls are positional; equal index sets are taken to have the same stored ranges.
* `lib/Dialect/BaseModelica/Transforms/ReadOnlyVariablesPropagation.cpp`: `Verif/Model/ReadOnlyPropagation.lean`. Regions are lists of operations with
  numbered results; nested regions, types and threads are not modelled.
* `lib/Dialect/BaseModelica/Transforms/Scheduling.cpp` (start equations), `InitialConditionsSolving.cpp` (their creation) and `Modeling/SCCBridge.cpp` (`getDependencies`):
  `Verif/Model/StartEquations.lean`, on the written and read elements; access functions are not modelled.
* `lib/Dialect/BaseModelica/Transforms/ModelAlgorithmConversion.cpp` and `ExplicitStartValueInsertion.cpp`: `Verif/Model/AlgorithmConversion.lean`, for scalar
  variables; the names of the functions are not modelled.
* `lib/Dialect/BaseModelica/Transforms/BindingEquationConversion.cpp`, `ExplicitInitialEquationsInsertion.cpp`, `ExplicitStartValueInsertion.cpp`,
  `createEquationTemplate` of `InitialConditionsSolving.cpp`, and the attributes of variables in `ModelLowerer.cpp` and `Modification.cpp`:
  `Verif/Model/StartValues.lean`; expressions are opaque, records and expressions of `fixed` that are no constants are left out.
* `lib/Dialect/BaseModelica/Transforms/PureFunctionInlining.cpp`: `Verif/Model/FunctionInlining.lean`; the call graph and the order of the default
  values (given as any permutation of the inputs) are not modelled.
* `lib/Dialect/BaseModelica/Transforms/RuntimeVerifiableOpInterfaceImpl.cpp`: `Verif/Model/RuntimeChecks.lean`; the conditions are given evaluated,
  the assertions themselves and NaN are not modelled.
* `lib/Dialect/BaseModelica/Transforms/EquationExplicitation.cpp` and the `EquationCallOp` in `lib/Codegen/Conversion/BaseModelicaToFunc/BaseModelicaToFunc.cpp`:
  `Verif/Model/EquationFunctions.lean`; the operations of the body (subscripts, casts) and the access attributes of the blocks are not modelled.
* `lib/Codegen/Conversion/BaseModelicaToLinalg/BaseModelicaToLinalg.cpp` and the inference of types of the operations in `lib/Dialect/BaseModelica/IR/Ops.cpp`:
  `Verif/Model/ArrayLowering.lean`; `NotOp`, `AndOp`, `OrOp`, `NegateOp` and the element-wise mathematical functions, booleans, overflow and rounding are not modelled.
  The meaning of the `linalg` operations, which is defined in MLIR, is part of the trusted base.
* `lib/Dialect/BaseModelica/Transforms/OpDistribution.cpp` and the implementations of the interfaces for the distribution in `lib/Dialect/BaseModelica/IR/Ops.cpp`:
  `Verif/Model/Distribution.lean`; the types of the elements (with the cast of the result), ranges and arrays with more than two dimensions are not modelled.
* `createFunctionPartialDerivative` of `lib/Dialect/BaseModelica/Transforms/AutomaticDifferentiation/ForwardAD.cpp`, `convertPartialDerFunction` of
  `AutomaticDifferentiation.cpp` and the statements of `DerivableOpInterfaceImpl.cpp`: `Verif/Model/FunctionDerivative.lean`; `for` statements, calls,
  arrays (line 239 compares a position with the mark of unknown sizes, which are thus never given) and the time derivatives of functions are not modelled.
* the choice of variables and equations of `lib/Dialect/BaseModelica/Transforms/IDA.cpp` (lines 176-280, 1960-2130, 2172-2268): `Verif/Model/IdaPartition.lean`;
  whether an equation can be made explicit is a parameter; the creation of the runtime calls and functions is not modelled.
* the Jacobian functions of `lib/Dialect/BaseModelica/Transforms/IDA.cpp` (lines 1174-1184, 1202-1758): `Verif/Model/IdaJacobian.lean`;
  the equation is taken at given indices with its subscripts evaluated, and the seeds are memories written and read by element.
* the replacement of the variables that IDA does not handle, `addEquationsToIDA` of `lib/Dialect/BaseModelica/Transforms/IDA.cpp` (lines 463-681),
  with `getWrites` of `WritesMap` (`Dialect.h:130-176`): `Verif/Model/IdaReplacement.lean`, on the equations and accesses of C76. Not modelled:
  array-valued accesses; there (`Ops.cpp:8344-8444`) `destinationAccess` and `additionalSubscriptions` are computed but never used, so that
  an array value replaces a scalar one.
* the accesses of equations, `getAccesses`, `searchAccesses`, `getValueAtPath` and `getAccessAtPath` of `lib/Dialect/BaseModelica/IR/Ops.cpp` (lines 8157-8318),
  `getEquationAccesses` of every operation (`OpInterfaces.td:141-193`, `EquationExpressionOpInterfaceImpl.cpp`), `mapAdditionalInductions` and
  `getDimensionAccess` (`Dialect.cpp:400-526`): `Verif/Model/EquationAccesses.lean`. The access functions are those of C20. Not modelled: types with
  dynamic sizes, operations without the interface, dependencies among additional inductions (no caller adds any).
* the accesses told to the solvers, `addVariableAccessesInfoToIDA` and `createAccessFunction` of `Transforms/IDA.cpp` (lines 949-1130), those of
  `Transforms/SCCSolvingWithKINSOL.cpp` (lines 314-355, 1361-1408) and `materializeAffineMap` (`IR/Dialect.cpp:528-605`): `Verif/Model/Sparsity.lean`. The
  cache of the access functions, keyed by the map, is not modelled.
* Properties (`Model/Serialization.lean`): `lib/Dialect/Modeling/IR/Properties.cpp` (index sets and lists of them) and `lib/Dialect/BaseModelica/IR/Properties.cpp:1-480` (variables, schedules and lists of them), as texts (sequences of tokens), attributes and bytecode (sequences of numbers and attributes). The lexer and the encoding of numbers in MLIR are not modelled; integers are unbounded.
* `DerivativesMap.cpp` (`Model/DerivativesMap.lean`): all of `DerivativesMap`; `llvm::MapVector` is a list of entries, `llvm::sort` any permutation, `+=` of index sets any union. `LockedDerivativesMap` (each call within a lock) is not modelled.
* `SchedulersInstantiation.cpp`, `addMissingRuntimeFunctions` and `convertScheduleBodyOp` (BaseModelicaToRuntime.cpp:228-285, 429-527), `groupModelOps` (RuntimeToFunc.cpp:464-548), the lowering of `SchedulerAddEquationOp` and `EquationCallOp` (`Model/SchedulersInstantiation.lean`): index sets are lists of ranges, `+=` their union, `SymbolTable::insert` any function that gives a new name, `llvm::sort` any permutation. Of the runtime library, which is another repository, it is assumed that a scheduler calls each function added once for each range.
* `Matching.cpp:137-410`, `VariableBridge::getIndices`, `EquationBridge::getIndices` and `collectMatches` (`Model/MatchingPass.lean`): index sets are finite sets, the edges of the graph and the algorithm are parameters (the algorithm is that of C30 in `C108_scalar_partial`).
* `getWriteAccesses`, `getReadAccesses` (`Ops.cpp:8196-8240`), `discoverAccesses`, `MCIM::apply`, `convertAccessFunction` (`Model/MatchedAccesses.lean`): an access is a function to one element; the edges of the graph of C108 are now built from the accesses.
* `computeSCCs` of the pass `SCCDetection.cpp`, `EquationInstanceOp::setIndices` (`Ops.cpp:10015-10056`) (`Model/SCCDetection.lean`): composed with the model of the dependency graph (C37) and with the matching pass (C108, C109).
* `createNumOfVariablesOp`, `createVariableNamesOp`, `createVariableRanksOp`, `createPrintableIndicesOp`, `createDerivativesMapOp`, `createVariableGetters` of `BaseModelicaToRuntime.cpp`, all the patterns of `RuntimeModelMetadataConversion.cpp` but the model name, and `VariableGetterOpLowering` of `RuntimeToFunc.cpp` (`Model/Metadata.lean`): the functions of the program as their values; the order of hash tables is a parameter.
* `differentiateVariable`, `differentiateEquation` of `Pantelides.cpp` and `Pantelides.h`, `createEquationTimeDerivative` of `ForwardAD.cpp` (`Model/IndexReduction.lean`): the effects of the requests on the variables, equations and derivatives map; the visits of the graph are not modelled (`Visited` is assumed of the requests), nor the canonicalization of the derived equation.
* `FunctionUnwrap.cpp`, `FunctionMangling.cpp`, `CallOp::getFunction`, `CallOpInterface::inverse` (callee only), `RuntimeFunctionsMangling::getMangledFunction` (`Model/FunctionNames.lean`): names and paths only; the conversion driver is the order of the functions.
* `RecordInlining.cpp` (`Model/RecordInlining.lean`): `VariableSetOpUnpackPattern`, `VariableComponentSetOpUnpackPattern`, `replaceVariableComponentSetOp`, `CallResultUnpackPattern` (positions), `replaceVariableGetOp` (component chains without subscripts), `getComponentSubscripts`, the lowering of component references in assignments. Not modelled: the arguments of calls, start, default and binding equations, `RecordCreateOp` and the tensor patterns, the iteration over `symbolUsers` while it is changed.
* `BaseModelicaToMemRef.cpp` (`Model/ArrayMemory.lean`): arrays from elements, fill, broadcast, copy between element types, subscriptions; `SubscriptionOp::inferResultType`, `MergeSubscriptionsPattern` and the merging into loads and stores of `Ops.cpp`. The semantics of `memref.subview`, `memref.cast`, rank reduction and `scf` loop nests are those of MLIR and trusted. Not modelled: constants and global variables, `memref.copy` of equal types, ranges of reals, overflow.
* `ComponentReferenceLowerer.cpp`, `SubscriptLowerer.cpp` (`Model/ComponentReads.lean`): the reading of component references. Sizes are left out, and a subscript of a value that is no tensor, where the cast fails.
* `CallLowerer.cpp:11-346` (arguments of functions and record constructors), `ExplicitCastInsertion.cpp` (`Model/CallArguments.lean`). The resolution of the callee is left out, and the functions derived from others.
* `BaseModelicaToFunc.cpp:325-344,431-731` (`Model/ExternalCalls.lean`): the calls of external functions in C. Two arguments in the same buffer are left out.
* `StandardFunctionLowerer.cpp:259-447` (`Model/ExternalLowering.lean`): the lowering of the call in the body of an external function. Slices among the arguments are left out.
* `ClassLowerer.cpp:62-91,130-145,277-319`, `BaseModelicaToFunc.cpp:745-1121` (`Model/RawVariables.lean`): the declaration of the variables of functions and their buffers. Heap or stack, and the types of elements, are left out. `Parser.cpp:1926-1941`: a dimension that begins with an integer literal is taken to be that literal, so `Real x[2*n]` is refused; the parser of dimensions is not modelled.
* `Parser.cpp:8-20,140-143,409-518,1769-1941` (`Model/DeclParser.lean`): lists of declarations with their types, dimensions and modifications; positions and texts of diagnostics are left out, the parser of expressions is a parameter.
* `Parser.cpp:545-599,692-759,843-921,948-1015` (`Model/EqParser.lean`): equation sections; positions and texts of diagnostics are left out, the parser of expressions is a parameter.
* `Parser.cpp:520-543,601-690,761-841,867-889,923-946,1017-1040,1525-1544` (`Model/StmtParser.lean`): algorithm sections; positions and texts of diagnostics are left out, the parsers of expressions, component references, output lists and function arguments are parameters.
* Where client code updates index sets in place (`+=`, `-=`) the clients' models rebuild the set (same
  points); the in-place algorithm itself is the subject of C07, C08, C16 and C18.
* `assert`s are taken as compiled out; where a failing assertion or other undefined behaviour would be
  reached, the model returns `none`.
