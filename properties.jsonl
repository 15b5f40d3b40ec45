{"id": "C01", "title": "Iterating a multidimensional range visits every point exactly once, in order", "statement": "Iterating a MultidimensionalRange from begin() to end() terminates and yields exactly the points p with begin_i <= p_i < end_i in every dimension, each once, in increasing lexicographic order (last dimension fastest); the number of points visited equals size().", "quantifier": "for every rank and every list of non-empty ranges", "why_tests_cant": "the number of ranks and bounds is unbounded; tests iterate a handful of 1-3 dimensional boxes", "anchors": ["lib/Modeling/MultidimensionalRange.cpp: MultidimensionalRange::Iterator, fetchNext, begin, end, size", "lib/Modeling/Range.cpp: Range::size, begin, end"]}
{"id": "C02", "title": "Range set operations are exact", "statement": "For Range: contains(x), contains(Range), overlaps, intersect, canBeMerged, merge and subtract agree with the corresponding operations on the integer sets {x | begin <= x < end}; canBeMerged holds exactly when the union is itself a range, and subtract returns pairwise disjoint non-empty ranges covering the difference.", "quantifier": "for all pairs of valid ranges and all integers", "why_tests_cant": "infinitely many bound configurations, including touching and nested ones", "anchors": ["lib/Modeling/Range.cpp: Range::contains, overlaps, intersect, canBeMerged, merge, subtract"]}
{"id": "C03", "title": "Box subtraction is an exact disjoint partition", "statement": "MultidimensionalRange::subtract(other) returns non-empty boxes that are pairwise disjoint and whose union is exactly the points of this that are not in other; subtracting a non-overlapping box returns the box itself and subtracting a covering box returns nothing.", "quantifier": "for every rank and every pair of boxes of equal rank", "why_tests_cant": "the dimension sweep interacts across an unbounded number of dimensions", "anchors": ["lib/Modeling/MultidimensionalRange.cpp: MultidimensionalRange::subtract"]}
{"id": "C04", "title": "Box merging is exact", "statement": "MultidimensionalRange::canBeMerged answers (true, d) only when the union of the two boxes is a box, in which case merge(other, d) contains exactly the points of the two boxes; and whenever the union of two distinct boxes that differ in one dimension is a box the answer is true.", "quantifier": "for every rank and every pair of boxes of equal rank", "why_tests_cant": "tests cover single-dimension examples only; exactness must hold for each point of the union", "anchors": ["lib/Modeling/MultidimensionalRange.cpp: canBeMerged, merge"]}
{"id": "C05", "title": "Comparison operators of points, ranges and boxes are total orders consistent with equality", "statement": "compare/operator< on Point, Range and MultidimensionalRange is a strict total order whose equivalence is operator==, so that sorting and ordered containers keyed by them are well defined.", "quantifier": "for all triples of values (equal rank for boxes)", "why_tests_cant": "transitivity and totality quantify over all triples", "anchors": ["lib/Modeling/Point.cpp: Point::compare", "lib/Modeling/Range.cpp: Range::compare", "lib/Modeling/MultidimensionalRange.cpp: compare"]}
{"id": "C06", "title": "A box equals a point only if it contains nothing else", "statement": "operator==(MultidimensionalRange, Point) is true exactly when the box contains that point and no other point; operator!= is its negation.", "quantifier": "for every box and every point of equal rank", "why_tests_cant": "the defect class (boxes larger than one point reported equal to a point) depends on bounds no test enumerates", "anchors": ["lib/Modeling/Range.cpp: Range::operator==, operator!=(Range::data_type)", "lib/Modeling/MultidimensionalRange.cpp: operator==(Point)"]}
{"id": "C07", "title": "An index set behaves as a mathematical set of points after any history of insertions", "statement": "After any sequence of operator+= of points, boxes and other index sets starting from the empty set, contains(p) is true exactly for the points that were inserted by some operation of the history.", "quantifier": "for every finite history of insertions, every rank, every point", "why_tests_cant": "histories are unbounded and the internal tree is reorganised (split, merged) by each step", "anchors": ["include/marco/Modeling/IndexSet.h", "lib/Modeling/IndexSet.cpp: insert, contains", "include/marco/Modeling/RTree.h: insert, chooseLeaf, splitNode, adjustTree"]}
{"id": "C08", "title": "Stored ranges of an index set stay disjoint and the size is the number of points", "statement": "After any sequence of insertions the ranges enumerated by rangesBegin()/rangesEnd() are pairwise disjoint, flatSize() equals the number of distinct points contained, and point iteration yields each contained point exactly once.", "quantifier": "for every finite history of insertions", "why_tests_cant": "disjointness is an invariant over unbounded histories; tests check sizes of a few sets", "anchors": ["lib/Modeling/IndexSet.cpp: insert, flatSize, begin, end"]}
{"id": "C09", "title": "Building an index set from a list of boxes is exact", "statement": "IndexSet(ArrayRef<MultidimensionalRange>) contains exactly the points of the given boxes, whatever their order, overlap or duplication, and its stored ranges are pairwise disjoint so that flatSize() is the number of points.", "quantifier": "for every finite list of boxes of equal rank", "why_tests_cant": "the defect needs particular relative positions of three overlapping boxes", "anchors": ["lib/Modeling/IndexSet.cpp: setFromRanges"]}
{"id": "C10", "title": "Set queries are exact", "statement": "contains(box) is true exactly when every point of the box is in the set; contains(set) exactly when it is a superset; overlaps(box) and overlaps(set) exactly when some point is shared.", "quantifier": "for all sets built by any history and all boxes/sets of equal rank", "why_tests_cant": "covering a box by several stored ranges involves unboundedly many fragments", "anchors": ["lib/Modeling/IndexSet.cpp: contains(MultidimensionalRange), contains(IndexSet), overlaps"]}
{"id": "C11", "title": "Intersection, difference and complement are exact", "statement": "intersect, operator- and complement return sets whose points are exactly the set-theoretic intersection, difference and box-relative complement; the operands are unchanged.", "quantifier": "for all index sets and boxes of equal rank", "why_tests_cant": "quantifies over all pairs of sets", "anchors": ["lib/Modeling/IndexSet.cpp: intersect, complement, remove"]}
{"id": "C12", "title": "Dimension projections and extensions are exact", "statement": "slice/takeFirstDimensions/takeLastDimensions/takeDimensions/dropFirstDimensions return exactly the projection of the set; append/prepend return exactly the Cartesian product.", "quantifier": "for every set, every rank and every dimension selection", "why_tests_cant": "projections merge many points into one, so distinct boxes collide in ways samples miss", "anchors": ["lib/Modeling/IndexSet.cpp: slice, takeFirstDimensions, takeLastDimensions, takeDimensions, dropFirstDimensions, append, prepend", "lib/Modeling/MultidimensionalRange.cpp: slice, takeDimensions, append"]}
{"id": "C13", "title": "The compact representation preserves the set", "statement": "getCompactRanges() returns pairwise disjoint boxes with exactly the same points as the set, and the index set rebuilt from them is equal to the original set.", "quantifier": "for every set", "why_tests_cant": "grid splitting and merging operates on unbounded combinations of boundaries", "anchors": ["lib/Modeling/IndexSet.cpp: getCompactRanges, splitRangesToMinGrid, mergeRanges"]}
{"id": "C14", "title": "Equality of index sets is equality of point sets", "statement": "operator==(IndexSet, IndexSet) is true exactly when the two sets contain the same points, independently of how they were built.", "quantifier": "for every pair of histories", "why_tests_cant": "two histories leading to the same points produce different internal trees", "anchors": ["lib/Modeling/IndexSet.cpp: operator==, contains", "include/marco/Modeling/RTree.h: contains"]}
{"id": "C15", "title": "Tree search never misses or invents an element", "statement": "A spatial index search (containment/overlap descent pruned by the bounding boxes) returns exactly the stored objects that satisfy the query, for any tree shape whose node boundaries cover their descendants.", "quantifier": "for every tree satisfying the bounding box invariant and every query box", "why_tests_cant": "pruning errors only appear for specific tree shapes reached after many splits", "anchors": ["include/marco/Modeling/RTree.h: RTreeCRTP::walkOverlappingObjects, contains, overlaps, RTreeNode::recalcBoundary"]}
{"id": "C16", "title": "Insertion keeps the spatial tree well formed", "statement": "After inserting an object in a well-formed tree, however the leaf and the split seeds are chosen, every node boundary is the minimum bounding box of its subtree, every non-root node has between minElements and maxElements entries, all leaves are at the same depth, and the stored objects are the old ones plus the new one.", "quantifier": "for every well-formed tree, every object, and every choice made by the heuristics (area ties, seeds)", "why_tests_cant": "splits cascade up to the root only after hundreds of insertions; the heuristics depend on areas", "anchors": ["include/marco/Modeling/RTree.h: insert, chooseLeaf, splitNode, splitNodeAndPropagate, adjustTree, isValid"]}
{"id": "C17", "title": "Bulk loading the spatial tree keeps it well formed", "statement": "setFromObjects on any list of objects produces a tree containing exactly these objects in which every non-root node has between minElements and maxElements entries and exact boundaries (isValid() holds).", "quantifier": "for every number of objects", "why_tests_cant": "the fan-out violation appears only for particular object counts (17 groups of objects or more)", "anchors": ["include/marco/Modeling/RTree.h: setFromObjects"]}
{"id": "C18", "title": "Removing from an index set removes exactly the given points", "statement": "After operator-= of a box or set, contains(p) is true exactly for the points contained before and not in the removed operand, and no freed memory is accessed while doing so.", "quantifier": "for every set built by any history and every removed box/set", "why_tests_cant": "the failure needs a tree in which removing empties several leaves at once", "anchors": ["lib/Modeling/IndexSet.cpp: remove", "include/marco/Modeling/RTree.h: adjustTree, collapseNodeAndPropagate"]}
{"id": "C19", "title": "The numeric map of a dimension access agrees with its affine expression", "statement": "For every DimensionAccess built from an affine expression, map(point) equals the value of getAffineExpression() at that point (constants, dimensions, sums, differences, products, floor divisions).", "quantifier": "for every expression and every point, including negative intermediate values", "why_tests_cant": "sign-dependent rounding differs only for negative operands", "anchors": ["lib/Modeling/DimensionAccess.cpp: DimensionAccess::build, map", "lib/Modeling/DimensionAccessDiv.cpp: map, getAffineExpr"]}
{"id": "C20", "title": "Combining access functions is composition", "statement": "g = f.combine(h) satisfies g.map(p) = h.map(f.map(p)) for every point p.", "quantifier": "for all affine access functions with matching arity and all points", "why_tests_cant": "composition must hold for every nesting of expressions", "anchors": ["lib/Modeling/AccessFunction.cpp: AccessFunction::combine"]}
{"id": "C21", "title": "The inverse of an access function is its inverse", "statement": "If inverse() returns a function it is the two-sided inverse of the access: inverse.map(f.map(p)) = p and f.map(inverse.map(q)) = q; isInvertible() is true exactly when such an inverse exists among offset-and-permutation accesses.", "quantifier": "for every offset/permutation access of every rank and every point", "why_tests_cant": "all permutations and offsets of all ranks", "anchors": ["lib/Modeling/AccessFunctionRotoTranslation.cpp: isInvertible, inverse"]}
{"id": "C22", "title": "Mapping an index set through an access function is the exact image", "statement": "map(IndexSet) contains exactly the images of the points of the set.", "quantifier": "for every offset/permutation access, every constant access, every set", "why_tests_cant": "sets of boxes are mapped box-wise; exactness is per point", "anchors": ["lib/Modeling/AccessFunctionRotoTranslation.cpp: map", "lib/Modeling/AccessFunctionConstant.cpp: map", "lib/Modeling/AccessFunctionGeneric.cpp: map"]}
{"id": "C23", "title": "The inverse image of an index set is exact", "statement": "inverseMap(accessed, parent) returns exactly the points p of parent whose image map(p) is contained in accessed.", "quantifier": "for every access function and every pair of index sets", "why_tests_cant": "the specialised implementations ignore one of the arguments; which inputs disagree cannot be enumerated", "anchors": ["lib/Modeling/AccessFunction.cpp: inverseMap", "lib/Modeling/AccessFunctionRotoTranslation.cpp: inverseMap", "lib/Modeling/AccessFunctionConstant.cpp: inverseMap", "lib/Modeling/AccessFunctionAffineConstant.cpp: inverseMap"]}
{"id": "C24", "title": "Setting and unsetting incidences is pointwise", "statement": "After set(eq, var) on an incidence matrix, get(eq, var) is true and no other entry changes; after unset(eq, var) it is false and no other entry changes.", "quantifier": "for every matrix built by any history of apply/set/unset", "why_tests_cant": "the affected entries are other cells of the same group; tests check only the touched cell", "anchors": ["lib/Modeling/MCIM.cpp: MCIM::set, unset, get", "lib/Modeling/MCIMGroup.cpp"]}
{"id": "C25", "title": "Applying an access to an incidence matrix marks exactly its incidences", "statement": "After apply(f) the entries (e, v) that are set are exactly those set before plus those with v in f.map(e), e in the equation space, v in the variable space.", "quantifier": "for every access function and every equation/variable space", "why_tests_cant": "quantifies over all cells of unboundedly large matrices", "anchors": ["lib/Modeling/MCIM.cpp: MCIM::apply"]}
{"id": "C26", "title": "Matrix sum, difference and flattening are pointwise", "statement": "(A + B).get = A.get or B.get, (A - B).get = A.get and not B.get; flattenRows is the set of variable indices used by some equation and flattenColumns the set of equation indices using some variable; filterRows/filterColumns keep exactly the selected rows/columns.", "quantifier": "for all pairs of incidence matrices over the same spaces and all filters", "why_tests_cant": "cross-group interactions depend on pairs of different access functions", "anchors": ["lib/Modeling/MCIM.cpp: operator+=, operator-=, flattenRows, flattenColumns, filterRows, filterColumns"]}
{"id": "C27", "title": "Local matching solutions are valid", "statement": "Every matrix produced by solveLocalMatchingProblem is contained in the given incidence matrix, matches every equation index and every variable index at most once, and all solutions computed from the same matrix are enumerated by operator[] (0 <= i < size()) without looping.", "quantifier": "for every incidence matrix / list of access functions", "why_tests_cant": "validity is per cell; enumeration defects depend on the number and kind of accesses", "anchors": ["lib/Modeling/LocalMatchingSolutionsMCIM.cpp", "lib/Modeling/LocalMatchingSolutionsVAF.cpp: fetchNext, solveLocalMatchingProblem"]}
{"id": "C28", "title": "Matched and unmatched indices always partition the matchable indices", "statement": "For every vertex of the matching graph, after any sequence of addMatch/removeMatch with the arguments the matcher uses, matched and unmatched indices are disjoint and their union is the set of matchable indices.", "quantifier": "for every history of match updates", "why_tests_cant": "invariant over histories", "anchors": ["lib/Modeling/Matching.cpp: Matchable::addMatch, removeMatch, setMatch", "include/marco/Modeling/Matching.h: MatchingGraph"]}
{"id": "C29", "title": "Applying augmenting paths preserves a valid matching and increases it", "statement": "Applying an augmenting path to a valid matching gives a valid matching (each scalar equation matched with at most one scalar variable and vice versa) whose number of matched scalars is larger by exactly the size of the augmented flow.", "quantifier": "for every matching and every augmenting path, of any length", "why_tests_cant": "paths and matchings are unbounded; alternation must hold at each step", "anchors": ["include/marco/Modeling/Matching.h: applyPath, AugmentingPath, BFSStep"]}
{"id": "C30", "title": "match() reports success only for a perfect matching", "statement": "When match() returns true every index of every equation and every variable is matched, each exactly once, along an existing incidence.", "quantifier": "for every system of array equations and every thread schedule of the candidate search", "why_tests_cant": "covers all systems and all interleavings of the parallel traversal", "anchors": ["include/marco/Modeling/Matching.h: match, matchIteration, matchLeafNodes, filterCandidateAugmentingPaths"]}
{"id": "C31", "title": "Paths applied together never interfere", "statement": "Whatever order the candidate augmenting paths are visited in, the accepted paths are pairwise disjoint on equations and variables, so that applying them in any order gives the same matching.", "quantifier": "for every list of candidates and every permutation/schedule of the filter", "why_tests_cant": "the acceptance order depends on thread scheduling", "anchors": ["include/marco/Modeling/Matching.h: filterCandidateAugmentingPaths, insertPath"]}
{"id": "C32", "title": "The array dependency graph has an edge exactly for real dependencies", "statement": "For equations e1, e2 there is a dependency edge e1 -> e2 exactly when some element read by e1 is written by e2; the result does not depend on the order in which threads process the equations.", "quantifier": "for every set of equations and every processing order", "why_tests_cant": "all overlaps of read and written regions; all schedules", "anchors": ["include/marco/Modeling/ArrayEquationsDependencyGraph.h: addEquations, buildWritesMap", "include/marco/Modeling/DependencyGraph.h"]}
{"id": "C33", "title": "The scalar dependency graph has an edge exactly for real dependencies", "statement": "For scalar equations s1, s2 there is a dependency edge s1 -> s2 exactly when s1 reads an element written by s2.", "quantifier": "for every set of equations, including those reading array ranges", "why_tests_cant": "reads of several elements at once are not exercised by the tests", "anchors": ["include/marco/Modeling/ScalarEquationsDependencyGraph.h: addEquations"]}
{"id": "C34", "title": "Schedules put dependencies first", "statement": "In the order returned by the scheduler for an acyclic dependency graph each equation group comes after every group it depends on, and every group appears exactly once.", "quantifier": "for every finite acyclic dependency graph and every adjacency order", "why_tests_cant": "arbitrary graphs", "anchors": ["include/marco/Modeling/SCCsDependencyGraph.h: postOrder", "include/marco/Modeling/Scheduling.h: schedule"]}
{"id": "C35", "title": "Scheduled loop directions respect self dependencies", "statement": "If the scheduler gives iteration directions (forward/backward/any) to an equation, then executing the nested loops in those directions computes every element of the equation's variable before it is read by the same equation; an equation with a dependency that cannot be ordered this way is scheduled as scalars.", "quantifier": "for every rank, every offset/permutation write access, every list of read accesses, every iteration box", "why_tests_cant": "the ordering must hold at all points of boxes of any rank and size", "anchors": ["include/marco/Modeling/Scheduling.h: getSchedulingDirections, mergeDirections"]}
{"id": "C36", "title": "Combining scheduling directions is order independent", "statement": "The direction combined from several dependencies does not depend on the order in which they are examined, and is the least permissive one compatible with all of them.", "quantifier": "for every list of directions and every permutation of it", "why_tests_cant": "all permutations of unbounded lists", "anchors": ["include/marco/Modeling/Scheduling.h: mergeDirections"]}
{"id": "C37", "title": "Strongly connected components partition the scalar equations", "statement": "getSCCs() returns components in which each scalar equation index of each equation appears exactly once.", "quantifier": "for every system of array equations", "why_tests_cant": "index-level cycle extraction splits equations in unbounded ways", "anchors": ["include/marco/Modeling/DependencyGraph.h: getSCCs, getEquationsCycles, splitCycle"]}
{"id": "C38", "title": "Mutually dependent equations end up in the same component", "statement": "If two scalar equations depend on each other (directly or through other equations) they belong to the same component returned by getSCCs().", "quantifier": "for every system of array equations", "why_tests_cant": "cycles sharing equations are combinatorially many", "anchors": ["include/marco/Modeling/DependencyGraph.h: getSCCs"]}
{"id": "C39", "title": "Index reduction bookkeeping is consistent", "statement": "After any sequence of Pantelides differentiation steps, each recorded derivative maps an index of a variable/equation to exactly one derivative, and the derivative relation is acyclic.", "quantifier": "for every history of differentiation requests", "why_tests_cant": "history invariant", "anchors": ["include/marco/Modeling/Pantelides.h: addVariableDerivative, differentiate"]}
{"id": "C40", "title": "Printing and re-reading a variable filter gives the same filter", "statement": "Lexing and parsing the textual form of a list of trackers (names, array ranges, derivatives, regular expressions) yields exactly these trackers.", "quantifier": "for every list of trackers with legal names and bounds that fit the index type", "why_tests_cant": "unbounded strings", "anchors": ["lib/VariableFilter/LexerStateMachine.cpp", "lib/VariableFilter/Parser.cpp", "lib/VariableFilter/VariableFilter.cpp: fromString"]}
{"id": "C41", "title": "Variable visibility follows the filter", "statement": "getVariableInfo/getVariableDerInfo report a variable (derivative) visible exactly when the filter is disabled or some tracker or regular expression selects it, and the element filter it returns has the variable's rank and covers exactly the requested ranges.", "quantifier": "for every filter and every variable name and rank", "why_tests_cant": "combinations of trackers, ranks and regular expressions are unbounded", "anchors": ["lib/VariableFilter/VariableFilter.cpp: getVariableInfo, getVariableDerInfo, matchesRegex"]}
{"id": "C42", "title": "Array bounds in a variable filter keep their value", "statement": "A non-negative bound written in a filter string restricts the tracked elements to that bound; in particular no finite bound is treated as unbounded.", "quantifier": "for every decimal bound accepted by the lexer", "why_tests_cant": "the truncation appears only for bounds above 2^31", "anchors": ["lib/VariableFilter/Parser.cpp: parseArrayIndex", "include/marco/VariableFilter/ArrayRange.h: kUnbounded"]}
{"id": "C43", "title": "Comments do not affect the Modelica token stream", "statement": "Lexing a Modelica source gives the same tokens when a well-formed comment is inserted between two tokens; an unterminated comment is an error.", "quantifier": "for every source text and every comment body", "why_tests_cant": "unbounded strings; the defect needs a comment body starting with '/'", "anchors": ["lib/Parser/BaseModelica/StateMachine.cpp"]}
{"id": "C44", "title": "Number literals lex to the value they denote", "statement": "A digit string lexes to the integer it denotes, and a floating literal digits.digits[e[+-]digits] to the rational value it denotes, when they fit the internal integers; the characters after the literal are left for the next token.", "quantifier": "for every literal", "why_tests_cant": "unbounded digit strings", "anchors": ["include/marco/Lexer/IntegerLexer.h", "include/marco/Lexer/FloatLexer.h", "lib/Parser/BaseModelica/StateMachine.cpp: ParsingFloatingPoint, ParsingFloatingPointExponent"]}
{"id": "C45", "title": "Parallel schedule groups respect dependencies", "statement": "After schedule parallelization every block is executed exactly once, after every block that writes what it reads; blocks in the same parallel group are independent; no group exceeds the configured size.", "quantifier": "for every acyclic dependency relation among blocks and every maximum group size", "why_tests_cant": "arbitrary dependency graphs; the failure needs a block reading two variables of the same block", "anchors": ["lib/Dialect/BaseModelica/Transforms/ScheduleParallelization.cpp: parallelizeBlocks"]}
{"id": "C46", "title": "Expression and equation paths are totally ordered consistently with equality", "statement": "operator< on ExpressionPath and EquationPath is a strict total order whose equivalence is operator==.", "quantifier": "for all triples of paths of any length", "why_tests_cant": "quantifies over all paths", "anchors": ["lib/Dialect/BaseModelica/IR/EquationPath.cpp", "lib/Dialect/BaseModelica/IR/ExpressionPath.cpp"]}
{"id": "C47", "title": "Inverting an operation to isolate an operand is sound", "statement": "When an equation 'op(..., x, ...) = r' is made explicit with respect to operand x through the inversion interface, the produced expression equals x whenever the original equation holds and the divisors involved are non-zero, and substituting it back satisfies the original equation.", "quantifier": "for all values of the operands in any field, and for arbitrarily nested expressions", "why_tests_cant": "all values and all nestings", "anchors": ["lib/Dialect/BaseModelica/Transforms/InvertibleOpInterfaceImpl.cpp", "lib/Dialect/BaseModelica/IR/Ops.cpp: EquationInstanceOp::explicitate"]}
{"id": "C48", "title": "Generated derivative expressions are derivatives", "statement": "For every expression built from the derivable operations, the derived expression evaluates to the derivative of the original along the given derivatives of its variables, at every point where the original operations are differentiable.", "quantifier": "for every expression (any nesting) and every point of its smooth domain", "why_tests_cant": "all expressions and all real points", "anchors": ["lib/Dialect/BaseModelica/Transforms/DerivableOpInterfaceImpl.cpp"]}
{"id": "C49", "title": "Equal index sets have equal hash codes", "statement": "If operator==(IndexSet, IndexSet) is true then hash_value is the same for the two sets, so that they can be keys of hashed containers.", "quantifier": "for all pairs of index sets, however built", "why_tests_cant": "the hash depends on how the points are stored, which depends on the whole construction history", "anchors": ["lib/Modeling/IndexSet.cpp: hash_value, size", "include/marco/Modeling/RTree.h: operator=="]}
{"id": "C50", "title": "Combining access functions that are not affine is composition", "statement": "For access functions of any kind, the points reached by f.combine(h) from p are exactly the points h reaches from some point f reaches from p.", "quantifier": "for all pairs of access functions, affine or not, and all points", "why_tests_cant": "nesting of ranges and iteration spaces inside expressions is unbounded; the tests only combine a few affine functions", "anchors": ["lib/Modeling/AccessFunction.cpp: AccessFunction::combine, fromExtendedMap"]}
{"id": "C51", "title": "The image of a point under a generic access is the product of its results", "statement": "map(point) of a generic access contains exactly the tuples of values its results take together, over all selections of a point in each iteration space with dependent dimensions.", "quantifier": "for all generic accesses, iteration spaces and points", "why_tests_cant": "all combinations of ranges, iteration spaces and dependencies", "anchors": ["lib/Modeling/AccessFunctionGeneric.cpp: map"]}
{"id": "C52", "title": "Printable indices are the shown elements of the array", "statement": "The set of printable indices computed for an array variable from the answer of the variable filter consists exactly of the elements of the array that the filter shows (bounds counted from one).", "quantifier": "for every shape, every list of element filters of the same rank and every index", "why_tests_cant": "shapes, bounds and ranks are unbounded; the tests only use bounds inside the array", "anchors": ["lib/Codegen/Conversion/BaseModelicaToRuntime/BaseModelicaToRuntime.cpp: getPrintableIndices", "lib/VariableFilter/VariableFilter.cpp: getVariableInfo"]}
{"id": "C53", "title": "The queries on boxes are exact", "statement": "For boxes and points of the same rank: contains(point), contains(box), overlaps, intersect, operator== and size of MultidimensionalRange agree with membership, inclusion, having a common point, the set intersection, equality and cardinality of the sets of points; anyDimensionOverlaps tells whether the ranges of some dimension have a common integer; the box built from a point has exactly that point.", "quantifier": "for all boxes and points", "why_tests_cant": "ranks and bounds are unbounded", "anchors": ["lib/Modeling/MultidimensionalRange.cpp: contains, overlaps, anyDimensionOverlaps, intersect, operator==, size"]}
{"id": "C54", "title": "The equations of a component depend on each other", "statement": "Two scalar equations of different array equations that getSCCs() puts in the same component depend on each other, directly or through other equations.", "quantifier": "for every system of array equations", "why_tests_cant": "the restriction of the paths has to be right for every cycle of array equations", "anchors": ["include/marco/Modeling/DependencyGraph.h: getSCCs, restrictPathIndicesBackward, splitCycle"]}
{"id": "C55", "title": "An accepted expression is a Modelica expression, with the tree of the grammar", "statement": "If parseExpression() accepts, the tokens it has read derive from the symbol `expression` of the Modelica grammar, and the tree it returns is the one the grammar assigns to them: precedence, grouping, order of operands, names, subscripts and arguments.", "quantifier": "for all lists of tokens", "why_tests_cant": "expressions nest without bound; the parser has a mutually recursive function for each symbol", "anchors": ["lib/Parser/BaseModelica/Parser.cpp: parseExpression ... parsePrimary, parseComponentReference, parseFunctionCallArgs, parseArraySubscripts, parseForIndices"]}
{"id": "C56", "title": "Every Modelica expression is parsed to its tree", "statement": "If a list of tokens derives from the symbol `expression` of the Modelica grammar and stands for a tree, and what follows cannot go on with an expression, then parseExpression() reads exactly these tokens and returns that tree; in particular the grammar is unambiguous.", "quantifier": "for all derivations and everything that may follow", "why_tests_cant": "the derivations are unbounded, and the look-ahead decisions depend on what follows", "anchors": ["lib/Parser/BaseModelica/Parser.cpp: parseExpression ... parseForIndex"]}
{"id": "C57", "title": "Parsing an expression ends with a tree or with a diagnostic", "statement": "On every list of tokens parseExpression() terminates, and either returns a tree or reports an error.", "quantifier": "for all lists of tokens, well-formed or not", "why_tests_cant": "malformed inputs are unbounded; termination of mutually recursive functions and loops", "anchors": ["lib/Parser/BaseModelica/Parser.cpp: parsePrimary, parseFactor, parseExpression"]}
{"id": "C58", "title": "An operation keeps its value when it is lowered", "statement": "Every expression that the parser accepts is lowered to operations of the dialect, without undefined behaviour, whose value is the value of the expression, for every interpretation of the operators and of the names.", "quantifier": "for all accepted expressions and all interpretations", "why_tests_cant": "expressions nest without bound", "anchors": ["lib/Codegen/Lowering/OperationLowerer.cpp", "lib/Codegen/Lowering/SubscriptLowerer.cpp", "lib/Codegen/Lowering/ExpressionLowerer.cpp", "lib/Parser/BaseModelica/Parser.cpp: parseLogicalExpression, parseLogicalTerm"]}
{"id": "C59", "title": "The operations created for an algorithm do what its statements say", "statement": "If the names of a list of statements are in scope, it is lowered without a diagnostic, and for every initial state the operations end in a state (by reaching the end, a break or a return) exactly if the statements do.", "quantifier": "for all lists of statements (assignment, if, while, for, break, return, nested at will) and all initial states, including executions of any length", "why_tests_cant": "programs and executions are unbounded", "anchors": ["lib/Codegen/Lowering/ForStatementLowerer.cpp: lower", "lib/Codegen/Lowering/StatementLowerer.cpp", "lib/Codegen/Lowering/AssignmentStatementLowerer.cpp"]}
{"id": "C60", "title": "if, while, break, return and assignments keep their meaning when lowered", "statement": "A list of statements without for is lowered exactly if its names are in scope and it assigns no iteration variable; then its operations end in a state, by reaching the end, a break or a return, exactly if the statements do. Outside of loops an undeclared name is always reported, never undefined behaviour.", "quantifier": "for all lists of statements without for, all scopes and all initial states", "why_tests_cant": "programs and executions are unbounded", "anchors": ["lib/Codegen/Lowering/IfStatementLowerer.cpp: lower", "lib/Codegen/Lowering/WhileStatementLowerer.cpp: lower", "lib/Codegen/Lowering/BreakStatementLowerer.cpp: lower", "lib/Codegen/Lowering/ReturnStatementLowerer.cpp: lower", "lib/Codegen/Lowering/AssignmentStatementLowerer.cpp: lower"]}
{"id": "C61", "title": "An array constructor becomes a tensor with its dimensions and its elements", "statement": "The constructor of an array ({a, b, ...} or {e for i in 1:n, ...}, nested at will) whose elements have the same dimensions and whose names are in scope is lowered to a tensor with the same dimensions and, in the same order, the same elements; a constructor that gives a tensor has dimensions.", "quantifier": "for all nested constructors, all sizes and all values of the variables", "why_tests_cant": "constructors nest without bound, and the traversal with two stacks has to keep the order at every depth", "anchors": ["lib/Codegen/Lowering/ArrayGeneratorLowerer.cpp: lower, computeShape, lowerValues"]}
{"id": "C62", "title": "The type of a vectorized call", "statement": "A call is accepted exactly if every argument is passed as it is or has the same additional dimensions as the others (as far as they are known), and then the results have these additional dimensions.", "quantifier": "for all numbers of arguments, all ranks and all sizes, known or not", "why_tests_cant": "unbounded numbers of arguments and dimensions, with any combination of known and unknown sizes", "anchors": ["lib/Codegen/Lowering/CallLowerer.cpp: getVectorizedResultTypes"]}
{"id": "C63", "title": "A vectorized call becomes one loop for each additional dimension", "statement": "If no argument of a call has the expected rank, then the number of loops is the number of additional dimensions of the call, and loops are created only if the arguments have the same additional dimensions.", "quantifier": "for all numbers of arguments, all ranks and all sizes, known or not", "why_tests_cant": "unbounded numbers of arguments and dimensions", "anchors": ["lib/Dialect/BaseModelica/Transforms/FunctionScalarization.cpp: getVectorizationRank"]}
{"id": "C64", "title": "The blocks of a function do what its algorithms do", "statement": "The conversion of the algorithms of a function to blocks that branch to each other succeeds exactly if every break is inside a loop. Then no structured operation is left, and the blocks reach the exit block with some values of the variables exactly if the execution of the algorithms ends with them, at the end or at a return.", "quantifier": "for all nested algorithms, all initial values and all executions, terminating or not", "why_tests_cant": "structured operations nest without bound, and executions have unbounded length", "anchors": ["lib/Codegen/Conversion/BaseModelicaToCF/BaseModelicaToCF.cpp: createCFG, recurse, moveAndConvertFunctionBody"]}
{"id": "C65", "title": "Folding gives the value the generated code computes", "statement": "An operation on constants that the compiler folds is folded without undefined behaviour, to the value that the arith operations it would otherwise be converted to compute from the same constants.", "quantifier": "for all operations, result types, constants of 64 bits, known or unknown operands, and every arithmetic on doubles with the laws of IEEE 754", "why_tests_cant": "the pairs of 64-bit constants cannot be enumerated, and the two implementations differ only at few of them", "anchors": ["lib/Dialect/BaseModelica/IR/Ops.cpp: fold of NegateOp, NotOp, CastOp, AddOp, SubOp, MulOp, DivOp, EqOp, NotEqOp, GtOp, GteOp, LtOp, LteOp, AndOp, OrOp", "lib/Codegen/Conversion/BaseModelicaToArith/BaseModelicaToArith.cpp: CastOpLowering, EqOpLowering, AddOpLowering, DivOpLowering and their siblings"]}
{"id": "C66", "title": "The size and the elements of a range", "statement": "The size of a range with a step other than zero, folded or computed by the generated code, is the number of its elements; the sum or difference of a range and an integer has the elements of the range, shifted, and is folded unless a bound overflows.", "quantifier": "for all bounds and steps of 64 bits, and every arithmetic on doubles with the laws of IEEE 754", "why_tests_cant": "bounds and steps cannot be enumerated; the formula is wrong only for some of the empty ranges", "anchors": ["lib/Dialect/BaseModelica/IR/Ops.cpp: fold of RangeOp, RangeBeginOp, RangeEndOp, RangeStepOp, RangeSizeOp, AddOp, SubOp; AddOpRangeOrderingPattern", "lib/Codegen/Conversion/BaseModelicaToArith/BaseModelicaToArith.cpp: RangeSizeOpLowering"]}
{"id": "C67", "title": "The mathematical functions are folded to what Modelica defines", "statement": "abs, ceil, floor, integer, sign, div, mod, rem, max, min and powers with integer exponents, applied to Integer and Real constants that are numbers and with a value of less than 64 bits, are folded to this value (or its rounding, for a Real).", "quantifier": "for all constants, and every arithmetic on doubles with the laws of IEEE 754", "why_tests_cant": "the pairs of 64-bit constants cannot be enumerated, and the rounding errors appear only at large ones", "anchors": ["lib/Dialect/BaseModelica/IR/Ops.cpp: fold of AbsOp, CeilOp, FloorOp, IntegerOp, SignOp, DivTruncOp, ModOp, RemOp, MaxOp, MinOp, PowOp", "lib/Codegen/Lowering/CallLowerer.cpp: abs, ceil, floor, integer, sign, div, mod, rem"]}
{"id": "C68", "title": "Splitting an equation by the accesses to its matched variable", "statement": "The equations created by EquationAccessSplit stand for the scalar equations of the original one, and each is matched with the elements it was matched with: the matched elements of a piece are those that the write access gives for its indices.", "quantifier": "for all matched equations, accesses and index sets", "why_tests_cant": "the pieces depend on how the images of the accesses overlap; three accesses are needed for a wrong one", "anchors": ["lib/Dialect/BaseModelica/Transforms/EquationAccessSplit.cpp: splitEquationIndices"]}
{"id": "C69", "title": "Splitting the ranges of an equation into scalars", "statement": "The equations created by ScalarRangesEquationSplit stand for the scalar equations of the original one, and each is matched with the elements it was matched with.", "quantifier": "for all matched equations, accesses and ways to store the indices", "why_tests_cant": "the matching of a piece is recomputed from all write accesses; it is wrong only for accesses that overlap", "anchors": ["lib/Dialect/BaseModelica/Transforms/ScalarRangesEquationSplit.cpp: splitEquation", "lib/Dialect/BaseModelica/IR/Ops.cpp: EquationInstanceOp::setIndices, EquationTemplateOp::getWriteAccesses"]}
{"id": "C70", "title": "Eliminating the inductions with one value", "statement": "The equations created by SingleValuedInductionElimination stand for the scalar equations of the original one, and each is matched with the element it was matched with.", "quantifier": "for all matched equations, accesses and ways to store the indices", "why_tests_cant": "the matching depends on the position of the eliminated inductions and on the values of the others", "anchors": ["lib/Dialect/BaseModelica/Transforms/SingleValuedInductionElimination.cpp: processEquation, createReducedTemplate", "lib/Dialect/BaseModelica/IR/Ops.cpp: EquationInstanceOp::setIndices, EquationTemplateOp::getWriteAccesses"]}
{"id": "C71", "title": "From equations to equation instances", "statement": "The equation instances created for the equations of a model (lowering of for-equations, EquationSidesSplit, EquationInductionsExplicitation, EquationTemplatesCreation, BindingEquationConversion) stand for exactly the scalar equations of the model, each with the values of its indices; their ranges are such as IndexSet admits, and both sides are scalars if the sizes of the arrays are known.", "quantifier": "for all sections of equations: any nesting of loops, any ranges with a step other than zero, any number of sides, arrays of any shape", "why_tests_cant": "the nesting of loops, the ranges and the shapes cannot be enumerated; the errors are in ranges that go down or have no values", "anchors": ["lib/Codegen/Lowering/ForEquationLowerer.cpp: lower", "lib/Dialect/BaseModelica/Transforms/EquationSidesSplit.cpp", "lib/Dialect/BaseModelica/Transforms/EquationInductionsExplicitation.cpp", "lib/Dialect/BaseModelica/Transforms/EquationTemplatesCreation.cpp: createTemplates, getIterationSpace", "lib/Dialect/BaseModelica/Transforms/BindingEquationConversion.cpp"]}
{"id": "C72", "title": "Promoted variables are constant", "statement": "The variables that VariablesPromotion turns into parameters have a value that does not depend on time or on states; and all the variables for which this can be seen from the equations are promoted.", "quantifier": "for all models with matched equations, and all orders of the strongly connected components with the dependencies first", "why_tests_cant": "dependencies, index sets and accesses cannot be enumerated; the error needs an access that only partly overlaps the written elements", "anchors": ["lib/Dialect/BaseModelica/Transforms/VariablesPromotion.cpp: getPromotableVariables, isPromotable"]}
{"id": "C73", "title": "The equations of promoted variables become initial equations", "statement": "When variables are promoted, each of their elements is solved by exactly one initial equation, which is part of an equation of the model, none of their equations remains in the main model, and all other variables keep their equations.", "quantifier": "for all models with matched equations, each element matched at most once", "why_tests_cant": "the index sets of the initial and main equations cannot be enumerated; the errors need initial equations that cover a main one, or elements without inductions", "anchors": ["lib/Dialect/BaseModelica/Transforms/VariablesPromotion.cpp: processModelOp"]}
{"id": "C74", "title": "Exactly the unused variables are removed", "statement": "VariablesPruning keeps exactly the variables that the outputs depend on, with all their equations, and nothing that remains refers to a variable that was removed; without outputs nothing is removed.", "quantifier": "for all models with matched equations", "why_tests_cant": "dependency graphs cannot be enumerated; the error needs a start value that reads a variable no equation reads", "anchors": ["lib/Dialect/BaseModelica/Transforms/VariablesPruning.cpp: processModelOp, collectUsedVariables", "include/marco/Modeling/ArrayVariablesDependencyGraph.h: addEquations"]}
{"id": "C75", "title": "An access is replaced at the iteration that writes the element", "statement": "When an access is replaced by the equation that writes the variable, the induction variables of that equation are given the values of the iteration that writes the accessed element.", "quantifier": "for all affine accesses without divisions, all iterations, and all simplifiers of affine expressions that keep values", "why_tests_cant": "accesses and iterations cannot be enumerated; the error needs constant subscripts that differ", "anchors": ["lib/Dialect/BaseModelica/IR/Ops.cpp: EquationTemplateOp::getReplacementTransformationAccess, mapInductionVariables", "lib/Dialect/BaseModelica/IR/Dialect.cpp: materializeAffineMap"]}
{"id": "C76", "title": "Solving cycles by substitution keeps the solutions", "statement": "The equations that result from the solution of the cycles of an SCC by substitution have exactly the solutions of the original equations; if some cycle can't be solved the SCC is left as it was; otherwise no cycle is left.", "quantifier": "for all equations, domains of values, explicit forms, cycles, and numbers of iterations", "why_tests_cant": "equations and cycles cannot be enumerated; the errors need a cycle through some of the iterations of an equation and a second one that can't be solved", "anchors": ["lib/Dialect/BaseModelica/Transforms/SCCSolvingBySubstitution.cpp: solveCycle", "lib/Dialect/BaseModelica/IR/Ops.cpp: EquationInstanceOp::cloneWithReplacedAccess, EquationTemplateOp::cloneWithReplacedVectorizedAccess"]}
{"id": "C77", "title": "Default values of the variables of functions", "statement": "An input variable of a function receives the argument of the call, or else its default value computed from the other input variables; output and protected variables with a default value have it when the function starts; output and protected variables are created after those that their dimensions read.", "quantifier": "for all functions with acyclic default values, all calls accepted by the verifier, all meanings of the operations, all addresses of the operations", "why_tests_cant": "dependencies among default values cannot be enumerated, and the order depends on the addresses; the tests have no default value of a protected or output variable that reads another variable, and no dimension that does", "anchors": ["lib/Dialect/BaseModelica/IR/VariablesDependencyGraph.cpp: discoverDependencies, postOrder", "lib/Dialect/BaseModelica/Transforms/FunctionDefaultValuesConversion.cpp: fillCallArgs, convertProtectedAndOutputDefaultValues", "lib/Codegen/Conversion/BaseModelicaToCF/BaseModelicaToCF.cpp: moveAndConvertFunctionBody"]}
{"id": "C78", "title": "The Butcher tableaus have the order of their methods", "statement": "The coefficients of each Runge-Kutta method offered as solver satisfy the order conditions for all rooted trees up to the order of the method in the literature, also for the second solution of the methods with an error estimate; the nodes are the sums of the rows; so polynomials of lower degree are integrated exactly and the step on a linear system is the truncated exponential.", "quantifier": "for all variants of the solver, all rooted trees up to the order, all fields of characteristic zero, all polynomials, all linear maps, all step sizes", "why_tests_cant": "a wrong coefficient gives plausible numbers; the tests compare the IR generated for some methods with the same coefficients", "anchors": ["lib/Dialect/BaseModelica/Transforms/RungeKutta.cpp: ButcherTableau, RungeKuttaPass::runOnOperation"]}
{"id": "C79", "title": "The step of the Runge-Kutta methods", "statement": "For the equations of the derivatives the pass generates equations for the slopes of the stages and for the next values of the states and of the derivatives; computed in any order that respects the dependencies seen by the later passes, they are one step of the method of the tableau for the differential equation that the model stands for.", "quantifier": "for all models with scalar and array states, all right-hand sides, all tableaus, all fields of numbers, all initial values and step sizes, all admissible orders of computation", "why_tests_cant": "the tests compare the IR generated for a few small models and do not run it; that the result is a step of the method is a statement on all orders of computation and all values", "anchors": ["lib/Dialect/BaseModelica/Transforms/RungeKutta.cpp: solveMainModel, createEquationFunction, createSlopeEquation, createFutureStateValueEquation, createTryStepFunction"]}
{"id": "C80", "title": "Error estimate, acceptance and the other variables of the Runge-Kutta methods", "statement": "The errors are the differences of the two solutions of the method and the estimate bounds their absolute values; after the acceptance the states and the derivatives have the next values and nothing else changes; the equations that do not belong to derivatives, and only they, are computed by updateNonStateVariables.", "quantifier": "for all models, all tableaus, all values, all admissible orders of computation", "why_tests_cant": "the tests have no negative error and no model without states, and do not run the generated code", "anchors": ["lib/Dialect/BaseModelica/Transforms/RungeKutta.cpp: createErrorEquation, createEstimateErrorFunction, createAcceptStepFunction, createUpdateNonStateVariablesFunction"]}
{"id": "C81", "title": "The forward Euler method", "statement": "The blocks that update the states, grouped by the schedule parallelization and executed in any order within the groups, are one step of the forward Euler method: each element of a state is increased by the step times its derivative before the step, nothing else changes.", "quantifier": "for all models with scalar and array states, both implementations (ranged and monolithic), all limits on parallel blocks, all orders of execution, all fields of numbers, all values", "why_tests_cant": "the tests have single states whose derivatives are not states and look at the IR of this pass alone; the grouping is done by a later pass", "anchors": ["lib/Dialect/BaseModelica/Transforms/EulerForward.cpp: createUpdateStateVariablesFunction, createRangedStateVariableUpdateBlocks, createMonolithicStateVariableUpdateBlock"]}
{"id": "C82", "title": "Canonicalization of views of tensors", "statement": "The patterns that merge views into views and views into extractions keep the elements that the operation denotes.", "quantifier": "for all chains of views with scalar and range subscripts of any rank, all values of the subscripts, all elements", "why_tests_cant": "the tests of the canonicalization have scalar subscripts only", "anchors": ["lib/Dialect/BaseModelica/IR/Ops.cpp: MergeTensorViewsPattern, MergeTensorViewIntoTensorExtractPattern"]}
{"id": "C83", "title": "Folding of views into accesses", "statement": "ViewAccessFolding replaces every extraction from a chain of views, with ranges or without, by an extraction from the source with the same element, and every view with scalar subscripts on a view by a view of the source.", "quantifier": "for all valid chains of views and extractions, all values of the subscripts", "why_tests_cant": "the pass has one pattern that never applies, which a test of the result of the other does not show; the composition b + i s has to hold for all begins, steps and indices", "anchors": ["lib/Dialect/BaseModelica/Transforms/ViewAccessFolding.cpp: isSlicingSubscription, concatSubscripts, TensorViewOpPattern, TensorExtractOpPattern"]}
{"id": "C84", "title": "Boundaries of ranges and lowering of views and insertions", "statement": "Unbounded ranges are replaced by ranges over the whole dimension without changing elements or dimensions; the slices that views and insertions are lowered to have the dimensions of the view (of the value) and put each element where the subscripts say.", "quantifier": "for all tensors, all subscripts, all values of begins, ends and steps", "why_tests_cant": "the tests of the lowering look at the shape of the IR with unit steps; a negative step is not tested", "anchors": ["lib/Dialect/BaseModelica/Transforms/RangeBoundariesInference.cpp", "lib/Codegen/Conversion/BaseModelicaToTensor/BaseModelicaToTensor.cpp: TensorViewOpLowering, TensorInsertSliceOpLowering"]}
{"id": "C85", "title": "Materialization of the derivatives", "statement": "The pass creates one variable, with the same shape, for each variable of which a derivative occurs, replaces the derivatives by accesses to it without changing the values of the expressions, and records exactly the derived elements.", "quantifier": "for all models (variables of any shape, equations with any indices and expressions, algorithms), all ways to make names unique", "why_tests_cant": "the tests have a derivative at the top of an equation; derivatives in a reduction, and of scalars in an algorithm, are not tested, and the set of derived elements has to be right for all index sets", "anchors": ["lib/Dialect/BaseModelica/Transforms/DerivativesMaterialization.cpp: processModelOp, collectDerOps, collectDerivedIndices, collectDerivedIndicesInAlgorithmRegion, createDerivativeVariables, removeDerOps"]}
{"id": "C86", "title": "Initialization of the derivatives", "statement": "After the materialization and the initialization every derivative has one start value, and an element of an array of derivatives has exactly one equation der = 0 if the element of the state is not derived in the model, and none otherwise.", "quantifier": "for all models, all variables, all elements", "why_tests_cant": "the claim relates the index sets of two passes for all shapes and accesses; the tests of each pass run it alone", "anchors": ["lib/Dialect/BaseModelica/Transforms/DerivativesInitialization.cpp: processModelOp, createMainEquations, createStartOp"]}
{"id": "C87", "title": "Elimination of common calls keeps the solutions", "statement": "The pass ends; the templates it returns have the same solutions for the old variables, determine the elements of the new variables, and access existing elements only.", "quantifier": "for all well-formed equation templates and iteration spaces, all interpretations of operations, reductions and (pure) functions, all values", "why_tests_cant": "equality of the solutions is about all values and interpretations, and the grouping depends on how inductions are paired over the whole expression; the tests compare the text of small outputs", "anchors": ["lib/Dialect/BaseModelica/Transforms/CallCSE.cpp: processModelOp, buildEquivalenceGroups, emitCseVariables, replaceCalls", "lib/Dialect/BaseModelica/Transforms/EquationExpressionOpInterfaceImpl.cpp: areExpressionOperandsEquivalent"]}
{"id": "C88", "title": "Common calls are eliminated", "statement": "If a call of a function without tensor results has at least two copies (equal up to inductions with the same ranges), and at least as many as the function has results, in templates with at most one range, and the pass ends, none of the copies is left.", "quantifier": "for all well-formed templates, all sets of copies", "why_tests_cant": "the groups have to be classes of an equivalence for all orders in which the calls are found", "anchors": ["lib/Dialect/BaseModelica/Transforms/CallCSE.cpp: buildEquivalenceGroups, processModelOp"]}
{"id": "C89", "title": "Propagation of read-only variables keeps the solutions", "statement": "Replacing the reads of read-only variables with copies of their binding equations ends, leaves no read of a propagated variable, and keeps the solutions of the model.", "quantifier": "for all well-formed models, all values and interpretations of the operations, all orders of the regions", "why_tests_cant": "the copies are spliced into regions that are themselves copied later; whether reads are left or the loop ends depends on the order of the declarations", "anchors": ["lib/Dialect/BaseModelica/Transforms/ReadOnlyVariablesPropagation.cpp: processModelOp"]}
{"id": "C90", "title": "Start equations are executed at the right moment", "statement": "The schedule of the initial conditions contains each SCC and each start equation once, and has an order in which each operation comes after those whose results it needs: SCCs before the start equations reading from them, start equations before the SCCs computing or reading their variable and before the start equations reading it.", "quantifier": "for all sets of SCCs and start equations with acyclic needs, and all orders of the SCCs the scheduler may choose", "why_tests_cant": "the position depends on the last of all the SCCs read from, and on the order of insertion of the other start equations", "anchors": ["lib/Dialect/BaseModelica/Transforms/Scheduling.cpp: processInitialModel, addStartEquations", "lib/Dialect/BaseModelica/Transforms/InitialConditionsSolving.cpp: addStartEquationsToSchedule", "lib/Dialect/BaseModelica/Transforms/Modeling/SCCBridge.cpp: getDependencies"]}
{"id": "C91", "title": "Algorithms of models become equations with the same solutions", "statement": "The algorithm of a model is replaced with one equation for each variable it assigns, calling a valid function; the equations hold exactly for the values with which the algorithm, executed from the start values of the assigned variables, ends.", "quantifier": "for all algorithms (loops, conditions, break, return), start values, orders of the sets of variables, values of the variables", "why_tests_cant": "the equivalence is about all executions of all algorithms, including those that do not end; tests compare the printed function of small examples", "anchors": ["lib/Dialect/BaseModelica/Transforms/ModelAlgorithmConversion.cpp: AlgorithmOpPattern::matchAndRewrite, getStartOp", "lib/Dialect/BaseModelica/Transforms/ExplicitStartValueInsertion.cpp: processModelOp"]}
{"id": "C92", "title": "Binding equations and start values become the right equations", "statement": "The passes that create equations from binding equations and from the attributes start and fixed produce a model whose equations have the solutions of the equations and binding equations of the source, and whose initial equations have the solutions of its initialization problem: equations, initial equations, binding equations and fixed start values, repeated along the leading dimensions.", "quantifier": "for all lists of variables (shapes, parameters or not, bindings, attributes in any order), equations, meanings of the expressions, values of the variables", "why_tests_cant": "the statement is an equivalence of solution sets for all combinations of bindings, start values, attributes and ranks; tests show the printed equations of single variables", "anchors": ["lib/Dialect/BaseModelica/Transforms/BindingEquationConversion.cpp: BindingEquationOpToEquationOpPattern, BindingEquationOpToStartOpPattern", "lib/Dialect/BaseModelica/Transforms/ExplicitInitialEquationsInsertion.cpp: processModelOp", "lib/Dialect/BaseModelica/Transforms/InitialConditionsSolving.cpp: createEquationTemplate", "lib/AST/BaseModelica/Modification.cpp: getFixedProperty, getEachProperty", "lib/Codegen/Lowering/ModelLowerer.cpp: lowerVariableAttributes"]}
{"id": "C93", "title": "A call has the same results after the inlining of the function", "statement": "If a function is accepted for inlining and a call of it returns some results, then the operations that replace the call give these results in every caller.", "quantifier": "for all functions (bodies, default values, outputs), calls with or without named arguments, meanings of the operations, values of the variables of the caller", "why_tests_cant": "the statement is about all bodies and all callers, in particular about names shared by the function and the caller; the tests have constant default values and scalar assignments", "anchors": ["lib/Dialect/BaseModelica/Transforms/PureFunctionInlining.cpp: canBeInlined, cloneBodyOp, inlineFunction, DefaultOpComputationOrderings"]}
{"id": "C94", "title": "The checks at run time stop exactly the invalid operations", "statement": "The checks added for the verification at run time hold for some operands if and only if the operation is valid for them: the elements accessed exist, the shapes of an inserted slice fit, the dimension asked for exists, no divisor is zero, the argument is in the domain of the function.", "quantifier": "for all shapes, indices, subscripts, elements of the divisor and arguments", "why_tests_cant": "the operands range over all shapes and integers; the tests of the pass look at the operations created for one shape and do not evaluate them", "anchors": ["lib/Dialect/BaseModelica/Transforms/RuntimeVerifiableOpInterfaceImpl.cpp: verifyIndexedAccess, verifyArgumentIsPositive, verifyArgumentIsNotZero, verifyArgumentIsBetween, the verifiers of the operations"]}
{"id": "C95", "title": "The function of an explicit equation makes it hold for all its indices", "statement": "If the directions chosen for an explicit equation put each element before its uses, then after the calls of the function created for it the equation holds for all its indices, and no other element has been assigned. If the indices are declared independent, this is so for any order of them.", "quantifier": "for all equations (elements assigned and read, values), directions, sets of indices of any rank and number of ranges, initial values", "why_tests_cant": "the tests of the pass check the operations created for forward loops only; the claim is about all boxes, all directions and all dependencies", "anchors": ["lib/Dialect/BaseModelica/Transforms/EquationExplicitation.cpp: createEquationFunction, createEquationBlocks, cloneEquationTemplateIntoFunction", "lib/Codegen/Conversion/BaseModelicaToFunc/BaseModelicaToFunc.cpp: EquationCallOpLowering"]}
{"id": "C96", "title": "The operations on arrays compute what the language defines", "statement": "For every operation on arrays (sum, difference, product, quotient, their element-wise variants, power of a matrix) that the language defines for its operands, the operations of the linalg dialect it is converted to are accepted, and give the array of the specification, whatever the memory contains before.", "quantifier": "for all operations, operands (scalars and arrays of any rank, sizes known or unknown, elements, integers or reals), contents of the memory", "why_tests_cant": "the tests of the conversion compare the operations created for one shape each, with equal types (they even expect the wrong power and the uninitialised destinations); the claim is about all shapes, types and values", "anchors": ["lib/Codegen/Conversion/BaseModelicaToLinalg/BaseModelicaToLinalg.cpp: CastOpLowering, AddOpLowering, AddEWOMixedLowering, SubOpLowering, SubEWOpScalarTensorLowering, SubEWOpTensorScalarLowering, MulOpScalarProductLowering, MulOpCrossProductLowering, MulOpVectorMatrixLowering, MulOpMatrixVectorLowering, MulOpMatrixLowering, MulEWOpTensorsLowering, DivOpTensorScalarLowering, DivEWOp lowerings, PowOpLowering, TransposeOpLowering", "lib/Dialect/BaseModelica/IR/Ops.cpp: inferReturnTypes of AddOp, SubOp, MulOp, DivOp, AddEWOp, SubEWOp, MulEWOp, DivEWOp, PowOp"]}
{"id": "C97", "title": "The distribution of negations, products and quotients keeps the value", "statement": "If an expression has a type and a value, then it has the same type and the same value after a negation, a product or a quotient has been distributed over its operands by the passes for it.", "quantifier": "for all expressions (sums, differences, products, quotients, element-wise or not, negations), numbers, vectors and matrices as leaves, and the three passes", "why_tests_cant": "the tests have one operation below the one that is distributed, on numbers, and compare the printed operations; the claim is about all trees and all values, zero and matrices among them", "anchors": ["lib/Dialect/BaseModelica/Transforms/OpDistribution.cpp: DistributionPass::run", "lib/Dialect/BaseModelica/IR/Ops.cpp: distribute, distributeNegateOp, distributeMulOp, distributeDivOp of NegateOp, AddOp, AddEWOp, SubOp, SubEWOp, MulOp, MulEWOp, DivOp, DivEWOp"]}
{"id": "C98", "title": "The derivative of a function is its partial derivative", "statement": "The function created for der(f, x) gives, for all arguments at which f is differentiable operation by operation, the partial derivatives of the results of f with respect to x; der(f, x, z) gives the second ones.", "quantifier": "for all functions on real numbers with assignments, if, while, break and return, all arguments, whatever the values of variables that are not initialized", "why_tests_cant": "the tests compare the statements that are created for one function each; the claim is about the values computed by arbitrary functions, through any number of iterations, for all arguments", "anchors": ["lib/Dialect/BaseModelica/Transforms/AutomaticDifferentiation/ForwardAD.cpp: createFunctionPartialDerivative", "lib/Dialect/BaseModelica/Transforms/AutomaticDifferentiation/AutomaticDifferentiation.cpp: convertPartialDerFunction", "lib/Dialect/BaseModelica/Transforms/DerivableOpInterfaceImpl.cpp: deriveRegion, VariableSetOp, IfOp, WhileOp, AlgorithmOp"]}
{"id": "C99", "title": "IDA gets a closed and square part of the model", "statement": "The variables, components and equations given to IDA are the least set that has the variables required (states, derivatives, cycles and implicit equations, or all) and is closed under the components; each equation is solved either by IDA or by the generated code, which writes no variable of IDA; IDA has as many equations as variables, and its states are those of the model.", "quantifier": "for all models, all divisions of the equations into components, all matchings and sizes, both settings of the option for reduced systems, all orders in which the sets of components are visited", "why_tests_cant": "the tests compare the output for a few models; the closure depends on chains of components of any length and the claims on the numbers of elements of all variables", "anchors": ["lib/Dialect/BaseModelica/Transforms/IDA.cpp: solveMainModel, addMainModelSCC, addMainModelEquation", "lib/Dialect/BaseModelica/Transforms/IDA.cpp: IDAInstance::addStateVariable, addDerivativeVariable, addAlgebraicVariable, addEquation"]}
{"id": "C100", "title": "The Jacobian functions give the IDA Jacobian", "statement": "The Jacobian function generated for an equation and an element of a variable v returns dF/dv + alpha * dF/dv', with F the residual and v' the derivative of v, for both ways of computing it (one or two calls of the differentiated residual), and leaves the seeds at zero; where a function is not created both partial derivatives are zero.", "quantifier": "for all models, equations of any size and indices, variables and elements, values of the variables, time and alpha, both settings of the option for one sweep, all values of the variables that are not initialized", "why_tests_cant": "the tests compare the generated functions for a few equations; that the sweep is right depends on the linearity of the derivative in the seeds for all expressions", "anchors": ["lib/Dialect/BaseModelica/Transforms/IDA.cpp: createResidualFunction, getIndependentVariablesForAD, createPartialDerTemplateFromEquation, createJacobianFunction"]}
{"id": "C101", "title": "The variables IDA does not handle are replaced without changing the solutions", "statement": "The replacement in the equations for IDA of the accesses to variables computed by other equations keeps, where those other equations hold, the solutions; gives exactly one scalar equation for each element a scalar equation was matched with; leaves no access to a variable computed by the others; and ends if those have no algebraic loop and can be made explicit.", "quantifier": "for all sets of equations with any number of iterations and any index sets, all expressions, all domains of values and all assignments", "why_tests_cant": "the tests replace one variable in one equation; that no scalar equation is lost or doubled when an access is written by several equations, and that the loop ends, are claims about all equation systems", "anchors": ["lib/Dialect/BaseModelica/Transforms/IDA.cpp: addEquationsToIDA", "include/marco/Dialect/BaseModelica/IR/Dialect.h: WritesMap", "lib/Dialect/BaseModelica/IR/Ops.cpp: cloneWithReplacedAccess"]}
{"id": "C102", "title": "The accesses of an equation reach the elements it reads", "statement": "Every element of a variable that a scalar equation reads at an iteration is reached from this iteration by one of the accesses that getAccesses finds, and without reductions the accesses reach no other element of an array variable.", "quantifier": "for all equations (any nesting of operations, subscriptions, casts and reductions), all iterations and all elements", "why_tests_cant": "the tests compare the accesses of a dozen of equations with expected strings; that no element read is missed is a claim about all expressions and all points", "anchors": ["lib/Dialect/BaseModelica/Transforms/EquationExpressionOpInterfaceImpl.cpp: getEquationAccesses, mapAdditionalInductions", "include/marco/Dialect/BaseModelica/IR/OpInterfaces.td: getEquationAccesses", "lib/Dialect/BaseModelica/IR/Dialect.cpp: getDimensionAccess", "lib/Dialect/BaseModelica/IR/Ops.cpp: EquationTemplateOp::getAccesses, searchAccesses"]}
{"id": "C103", "title": "The path of an access leads to it", "statement": "No two accesses of an equation have the same path, and for every access that getAccesses finds the value at its path is a subscription of the variable accessed and getAccessAtPath gives the same access back.", "quantifier": "for all equations (any nesting of operations, subscriptions, casts and reductions)", "why_tests_cant": "the tests print the paths of a few accesses; that the search along the path undoes the search that made it is a claim about all expressions", "anchors": ["lib/Dialect/BaseModelica/IR/Ops.cpp: EquationTemplateOp::getAccesses, getValueAtPath, getAccessAtPath", "lib/Dialect/BaseModelica/Transforms/EquationExpressionOpInterfaceImpl.cpp: getExpressionElement, getEquationAccesses"]}
{"id": "C104", "title": "The solvers are told every element that an equation reads", "statement": "If an equation reads an element of a variable handled by the solver at one of its iterations, one of the access functions that addVariableAccessesInfoToIDA (or ...ToKINSOL) adds for that variable - for its state, if it is a derivative - leads from the index of the iteration to that element, so that its entry of the Jacobian matrix is not taken to be zero.", "quantifier": "for all equations, iteration spaces, iterations, sets of solver variables, and elements read", "why_tests_cant": "the tests compare the access functions of a few equations; a missing entry only degrades the convergence of the solver, and whether all elements read are covered is a claim about all equations and iterations", "anchors": ["lib/Dialect/BaseModelica/Transforms/IDA.cpp: addVariableAccessesInfoToIDA, createAccessFunction", "lib/Dialect/BaseModelica/Transforms/SCCSolvingWithKINSOL.cpp: addVariableAccessesInfoToKINSOL, createAccessFunction", "lib/Dialect/BaseModelica/IR/Dialect.cpp: materializeAffineMap"]}
{"id": "C105", "title": "Properties of operations are read back as they were written", "statement": "An index set, a variable with its indices, a schedule direction, or a list of them, when written as a text, as an attribute or as bytecode and read back, is equal to what was written, and what follows it is left unread.", "quantifier": "for all well-formed index sets (any number of ranges, any rank), all names, all lists, and whatever follows in the text", "why_tests_cant": "the tests parse and print a few lists; the failures found depend on the order of the elements in the list and on the history of the set", "anchors": ["lib/Dialect/Modeling/IR/Properties.cpp", "lib/Dialect/BaseModelica/IR/Properties.cpp: Variable, VariablesList, Schedule, ScheduleList", "include/marco/Modeling/RTree.h: move constructor"]}
{"id": "C106", "title": "The map of the derivatives answers and is stored consistently", "statement": "After any sequence of changes the derivative of a variable and the variable of a derivative are inverse to each other and are the ones set, and the derived indices are the points set last and those added since; two maps are equal exactly if they give the same answers; a map that is written as a text, an attribute or bytecode is read back as an equal map.", "quantifier": "for all sequences of changes, all maps of any size, all sets of indices, and any order in which the entries are printed", "why_tests_cant": "the tests print and parse maps with one or two entries; consistency is a claim about every sequence of changes made by the passes", "anchors": ["lib/Dialect/BaseModelica/IR/DerivativesMap.cpp", "include/marco/Dialect/BaseModelica/IR/DerivativesMap.h"]}
{"id": "C107", "title": "Running a schedule with schedulers makes the same calls", "statement": "After the instantiation of the schedulers each operation of each region of a schedule makes exactly the calls of equation functions it made before, with the same bounds and the same permission to reorder the indices, and executes the same other operations, in the same order of the operations; every scheduler is created exactly once before it is run and destroyed exactly once afterwards; the block that runs a scheduler is said to access exactly the elements the blocks it replaces are said to access; no scheduler is made for a single call for one element.", "quantifier": "for all modules, all schedules with any number of regions, groups, blocks and calls, all sets of indices, and all ways in which symbols are renamed", "why_tests_cant": "the tests have two or three groups with a few calls; that no call is lost or made twice is a claim about all schedules and all names", "anchors": ["lib/Dialect/BaseModelica/Transforms/SchedulersInstantiation.cpp", "lib/Codegen/Conversion/BaseModelicaToRuntime/BaseModelicaToRuntime.cpp", "lib/Codegen/Conversion/RuntimeToFunc/RuntimeToFunc.cpp", "lib/Codegen/Conversion/RuntimeToLLVM/RuntimeToLLVM.cpp", "lib/Codegen/Conversion/BaseModelicaToFunc/BaseModelicaToFunc.cpp"]}
{"id": "C108", "title": "Matching a model pairs its scalar equations with its unknowns", "statement": "The matching pass refuses a model as underdetermined or overdetermined exactly if the number of its scalar equations is smaller or greater than that of its unknowns (in the main model: what is neither read-only nor a state; for the initial conditions: all the variables). If it succeeds, the new instances have exactly the scalar equations of the old ones, each once and with the same template and properties, each instance is matched, and each scalar unknown is matched exactly once.", "quantifier": "for all models, with any numbers of scalar and array equations and variables and any states, and all perfect matchings of the graph", "why_tests_cant": "the tests check the instances of a few models; that no index is lost when an equation is divided among variables is a claim about all matchings", "anchors": ["lib/Dialect/BaseModelica/Transforms/Matching.cpp", "include/marco/Modeling/Matching.h", "lib/Dialect/BaseModelica/Transforms/Modeling/VariableBridge.cpp", "lib/Dialect/BaseModelica/Transforms/Modeling/EquationBridge.cpp"]}
{"id": "C109", "title": "The writes and reads of a matched equation", "statement": "After the matching, an instance has a write access; its write accesses are exactly the accesses that give, in each of its scalar equations, the scalar variable this equation is matched with; and an access that is not among the reads uses nothing but the matched variables.", "quantifier": "for all models, all access functions, and all perfect matchings of the graph that is built from the accesses", "why_tests_cant": "the tests use equations that access the matched variable in one way; the claim is about all accesses and matchings", "anchors": ["lib/Dialect/BaseModelica/IR/Ops.cpp", "include/marco/Modeling/Matching.h", "lib/Dialect/BaseModelica/Transforms/Matching.cpp", "lib/Modeling/MCIM.cpp", "lib/Dialect/BaseModelica/Transforms/Modeling/EquationBridge.cpp"]}
{"id": "C110", "title": "Dividing a model into components keeps its equations and what they determine", "statement": "The pass that replaces the matched equations by strongly connected components, given equations in which each scalar equation has a scalar variable of its own that each write denotes, puts each scalar equation into the components exactly once, with its properties, and the scalar variables matched in the components are, each once, those matched before; hence after the matching pass each unknown of the model is determined exactly once.", "quantifier": "for all models, access functions, perfect matchings, representations of index sets as ranges, array components and components found by the dependency graph", "why_tests_cant": "the tests have components of a few equations that are not divided; the claim is about every way in which the cycles divide the equations", "anchors": ["lib/Dialect/BaseModelica/Transforms/SCCDetection.cpp", "lib/Dialect/BaseModelica/IR/Ops.cpp", "include/marco/Modeling/DependencyGraph.h", "lib/Dialect/BaseModelica/Transforms/Modeling/EquationBridge.cpp"]}
{"id": "C111", "title": "The simulation program describes the variables of the model", "statement": "The functions that the compiler gives to the simulation program answer, for the number of a variable (reserved variables do not count), with its name, its rank, the number of its derivative (-1 without one), the value of the element whose indices are given, whether there is something to print, and, for arrays, ranges that contain exactly the elements the user asked for, each in exactly one range; for other numbers they give the answers for unknown variables.", "quantifier": "for all models with distinct names and existing derivatives, all filters with bounds in the arrays, all orders in which hash tables are visited and all states of the variables", "why_tests_cant": "the tests look at the generated blocks of a few models without reserved variables and with at most two ranges; the dangling references of three or more ranges usually still hold the old values", "anchors": ["lib/Codegen/Conversion/RuntimeModelMetadataConversion/RuntimeModelMetadataConversion.cpp", "lib/Codegen/Conversion/BaseModelicaToRuntime/BaseModelicaToRuntime.cpp", "lib/Codegen/Conversion/RuntimeToFunc/RuntimeToFunc.cpp"]}
{"id": "C112", "title": "Index reduction keeps the solutions of the model", "statement": "The derivative variables and derived equations that the Pantelides pass adds do not change the solutions: every smooth trajectory satisfying the model is extended, by giving the new derivative elements the derivatives, to a trajectory satisfying also the added equations, unchanged on all the elements read by the equations of the model; every trajectory satisfying the new model satisfies the old one; and the differentiation of the equations asked for succeeds.", "quantifier": "for all models, all sequences of differentiations of visited variables and equations (also of the same array variable or equation at different indices), all open sets of times and all smooth trajectories", "why_tests_cant": "the only test of the pass compares the output text for one scalar pendulum; whether solutions survive is a statement about functions of time", "anchors": ["lib/Dialect/BaseModelica/Transforms/Pantelides.cpp", "lib/Dialect/BaseModelica/Transforms/AutomaticDifferentiation/ForwardAD.cpp", "include/marco/Modeling/Pantelides.h"]}
{"id": "C113", "title": "Calls keep their callees when functions are unwrapped and mangled", "statement": "After the functions have been moved out of the classes and their names mangled, every call leads to the same function as before and to no other one, all the functions are in the module under names that differ from one another, from those of the other symbols and from those of the runtime functions, and the inverse functions named by the annotations can still be called.", "quantifier": "for all modules with any nesting of classes and functions and any names, all calls, and all orders in which the functions are taken", "why_tests_cant": "the tests check a few fixed names; the clashes depend on the names the user chose and on the order, and the inverse calls are made by a later pass", "anchors": ["lib/Dialect/BaseModelica/Transforms/FunctionUnwrap.cpp", "lib/Dialect/BaseModelica/Transforms/FunctionMangling.cpp", "lib/Dialect/BaseModelica/Transforms/InvertibleOpInterfaceImpl.cpp", "lib/Codegen/Conversion/RuntimeCommon/Mangling.cpp"]}
{"id": "C114", "title": "Inlining records keeps assignments, reads and call results", "statement": "When the record variables are replaced by one variable for each component, an assignment to a component reference sets the same elements, the assignment of a whole record assigns each component to its variable, a use of a result of a call becomes a use of the corresponding new result, and a read of a component becomes a read of the variable for it.", "quantifier": "for all component references of any length with any ranks and subscripts, all record types of any nesting, all lists of call results and all orders in which the variables are taken", "why_tests_cant": "the tests have records of two scalars, one level deep; the defects need nested records, arrays of records, or a scalar result after a record", "anchors": ["lib/Dialect/BaseModelica/Transforms/RecordInlining.cpp", "lib/Dialect/BaseModelica/IR/Ops.cpp", "lib/Codegen/Lowering/AssignmentStatementLowerer.cpp"]}
{"id": "C115", "title": "Arrays in memory have the elements they are given", "statement": "An array built from a list of values has them by rows; filling and copying set all the elements of the destination and nothing else; a subscription is a view whose elements are those that the subscripts choose; merging subscriptions with each other, with loads and with stores keeps the element.", "quantifier": "for all ranks, sizes, strides and offsets, all values, all subscripts with static and dynamic sizes, all chains of subscriptions", "why_tests_cant": "the tests compare the shape of the IR for one array each; the test of the subscription has the cast to the type without an offset in its expected output, and no test has an empty array or a subscription of a slice", "anchors": ["lib/Codegen/Conversion/BaseModelicaToMemRef/BaseModelicaToMemRef.cpp", "lib/Dialect/BaseModelica/IR/Ops.cpp: SubscriptionOp, LoadOp, StoreOp", "lib/Codegen/Conversion/BaseModelicaCommon/TypeConverter.cpp"]}
{"id": "C116", "title": "A component reference reads the elements that its subscripts name", "statement": "The value of a reference such as a[i].b[:, 2].c has one dimension for each dimension of the components that remains, in the order of the components, and its elements are those that the subscripts of each component choose, counted from 1.", "quantifier": "for all paths of any length, all ranks, all subscripts (indices, ranges, colons, or fewer than the rank)", "why_tests_cant": "the tests of the frontend have at most one component with subscripts, as many as its rank", "anchors": ["lib/Codegen/Lowering/ComponentReferenceLowerer.cpp", "lib/Codegen/Lowering/SubscriptLowerer.cpp"]}
{"id": "C117", "title": "Each parameter of a function receives the argument that the call gives to it", "statement": "For a well-formed call (arguments without name first, then arguments with the names of other parameters), each parameter that the call gives a value receives that value, converted to the type of the parameter; the other parameters receive their default values. The same for the components of a record constructor.", "quantifier": "for all functions with any number of parameters, all calls, all types of the arguments, all conversions between types", "why_tests_cant": "the tests have calls with as many arguments as parameters and without names", "anchors": ["lib/Codegen/Lowering/CallLowerer.cpp", "lib/Dialect/BaseModelica/Transforms/ExplicitCastInsertion.cpp"]}
{"id": "C118", "title": "An external function receives the arguments of its call, and what it writes comes back", "statement": "A function written in C receives the values of the scalar arguments, and for each array a pointer to its elements by rows followed by its sizes; after the call the elements of the arrays have the values that the function has left behind the pointers, the result of the call is that of the function, and nothing else is changed.", "quantifier": "for all external functions, all numbers of arguments, all arrays of any rank, offset and strides, all widths of the types of C up to 64, all contents of the memory", "why_tests_cant": "the tests check the operations that are created for one call each; values beyond 32 bits and slices are not run", "anchors": ["lib/Codegen/Conversion/BaseModelicaToFunc/BaseModelicaToFunc.cpp"]}
{"id": "C119", "title": "The variables of an external function hold what the call in its body has written", "statement": "After the call in the body of an external function, each reference to an output or protected variable among the arguments has the value that the external function has left there, the destination has the result, and all other variables are unchanged; the function receives the values of the arguments in their order.", "quantifier": "for all types of values with components and elements, all external functions, all lists of arguments, all contents of the variables", "why_tests_cant": "the tests check the operations created for a few calls; elements of arrays among the arguments and several modified arguments are not run", "anchors": ["lib/Codegen/Lowering/StandardFunctionLowerer.cpp", "lib/Dialect/BaseModelica/Transforms/BufferizableOpInterfaceImpl.cpp"]}
{"id": "C120", "title": "The variables of functions have the declared sizes and the assigned values", "statement": "When a function is entered, its output and protected arrays have the sizes of their declarations; the operations on its variables in memory do what they do on values: an assignment gives the variable the assigned value and sizes, other variables and values read before are unchanged, and no operation accesses released memory.", "quantifier": "for all declarations of arrays of any rank, all types of elements, all numbers and kinds of variables, all sequences of reads, assignments, assignments of elements and uses", "why_tests_cant": "the tests check the operations created for single reads and writes; a use of released memory depends on the order of all the operations of a function", "anchors": ["lib/Codegen/Conversion/BaseModelicaToFunc/BaseModelicaToFunc.cpp", "lib/Codegen/Lowering/ClassLowerer.cpp", "lib/AST/BaseModelica/ArrayDimension.cpp"]}
{"id": "C121", "title": "The declarations of a class are read as they are written", "statement": "The declarations of a section, written with prefixes, type, dimensions, name, modification, comment and annotation, are read as the members with these names, types, dimensions, prefixes and modifications, in order, and reading stops at the keyword that ends the section.", "quantifier": "for all numbers of declarations, all modifications of any depth, all types and dimensions, and all parsers of expressions that read the expressions as they are written", "why_tests_cant": "the tests parse single declarations; modifications nest without bound, and dimensions that begin with a number and go on do not occur in them", "anchors": ["lib/Parser/BaseModelica/Parser.cpp"]}
{"id": "C122", "title": "The equations of a section are read as they are written", "statement": "The equations of a section, with loops and conditional equations at any depth, are read as these equations in order, with their conditions, indices and branches, and reading stops at the keyword that ends the section.", "quantifier": "for all numbers of equations, all loops with any number of indices, all conditional equations with any number of branches and any depth, and all parsers of expressions that read the expressions as they are written", "why_tests_cant": "the tests parse single equations; conditional equations nest without bound, and when equations do not occur in them", "anchors": ["lib/Parser/BaseModelica/Parser.cpp"]}
{"id": "C123", "title": "The statements of an algorithm are read as they are written", "statement": "The statements of an algorithm section, with assignments, calls, loops and conditional statements at any depth, are read as these statements in order, and reading stops at the keyword that ends the section.", "quantifier": "for all numbers of statements, all loops and conditional statements with any number of branches and any depth, and all parsers of expressions, references, outputs and arguments that read these as they are written", "why_tests_cant": "the tests parse single statements; statements nest without bound, and when statements, calls without arguments and sections before initial equations do not occur in them", "anchors": ["lib/Parser/BaseModelica/Parser.cpp"]}
