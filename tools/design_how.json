{
 "C01": "names as character lists; injectivity: the suffix after the last `_` determines the date",
 "C02": "symbol structure, stepping a steady-state symbol is an error value; algebra on Int",
 "C03": "encode/decode of keys; round trip for t in {-1,0,1,ss}, counterexample family for all deeper dates",
 "C04": "dictionary as state machine; invariant over every history of operations",
 "C05": "heap with shared metadata cells; frame theorem and aliasing counterexamples",
 "C06": "fold of the key map; invariant over the fold",
 "C07": "AST and collectors; structural induction",
 "C08": "solutions are paths Int -> value; equivalence of expanded and written block by extending/restricting paths, any interpretation of operators",
 "C09": "structural induction",
 "C10": "counting identities and new variables; counterexample across blocks",
 "C11": "printer to tokens and the operator-precedence parser; round trip on the stable fragment by induction, counterexamples outside",
 "C12": "symbolic expressions with evaluation on paths; induction, for any hash order",
 "C13": "evaluation on constant paths; induction",
 "C14": "HasDerivAt of finite and infinite discounted sums",
 "C15": "DFS invariant with an explicit stack; values by induction on the topological order",
 "C16": "iff/counting characterisation over lists",
 "C17": "decision logic; negation with witness, positive part for explicit validate()",
 "C18": "iff over collected names; witness for the missed side",
 "C19": "fold over blocks; exact keys and values",
 "C20": "induction over the component lists",
 "C21": "trichotomy by cases on the parsed equation",
 "C22": "Lagrangian as symbolic sum; value by induction over constraints",
 "C23": "solve_optimization as Except program; contents of the result, derivative values from C14",
 "C24": "closed forms over the reals; HasDerivAt of the Lagrangian for any arity",
 "C25": "same for CES with Real.rpow",
 "C26": "systems as lists of expressions; solution-set inclusion both ways where true",
 "C27": "same",
 "C28": "collectors and sort key; permutation and order theorems",
 "C29": "assembly of the stacked matrix entry by entry; real derivatives",
 "C30": "boundary functions by cases on the period",
 "C31": "placement functions; entry by entry",
 "C32": "line-search loop over abstract merit; invariant over iterations",
 "C33": "history deque; invariant within one solve, leak exhibited across solves",
 "C34": "dogleg and Steihaug CG over the reals; loop invariants",
 "C35": "driver loop with max iterations; every exit characterised",
 "C36": "real matrices; algebra and induction over dates",
 "C37": "impulse responses as recursion; closed form by induction over the horizon",
 "C38": "decision table",
 "C39": "permutations of equations/variables, entries are HasDerivAt derivatives at the steady state in levels or logs",
 "C40": "decision table of the check over generalized eigenvalue pairs; link to C68",
 "C41": "set of used minus set of defined names, iff",
 "C42": "Jaro/Levenshtein-like score abstract; sortedness, bound, threshold by induction",
 "C43": "induction over components, witness for duplicates",
 "C44": "fold over declarations",
 "C45": "fix-point iteration; invariant over rounds",
 "C46": "evaluator of number expressions vs rational arithmetic",
 "C47": "covariance form; Lyapunov equation, limits, symmetry, semidefiniteness",
 "C48": "C07/C08 composed with C14",
 "C49": "substitution at the written date, evaluation",
 "C50": "solver oracle with contract; solution sets",
 "C51": "evaluation commutes with conversion, induction",
 "C52": "collectors over blocks",
 "C53": "fold over blocks",
 "C54": "substitution of steady-state definitions",
 "C55": "fold over blocks, link table",
 "C56": "iff over names",
 "C57": "parameter function values per period",
 "C58": "case analysis over the given keys",
 "C59": "sigmoid weights in exact arithmetic; monotone",
 "C60": "damping update; invariant over iterations",
 "C61": "error recursion of cycle reduction; induction over passes",
 "C62": "derivative of the implicit equation along differentiable curves; adjoint identities",
 "C63": "decision table",
 "C64": "labels by dimension",
 "C65": "iff over residuals",
 "C66": "flag lists, position vs name",
 "C67": "iff against a separate specification WellFormedBlock",
 "C68": "QZ and SVD as contracts (SortedQZ, ThinSVD); matrix algebra, uniqueness over stable paths",
 "C69": "return codes iff algebraic conditions on the transformed system",
 "C70": "evaluation on constant paths, C13",
 "C71": "sum of squares over the reals, gradient and Hessian",
 "C72": "sequential substitution, solution sets",
 "C73": "names and order of outputs",
 "C74": "via C15",
 "C75": "partition of the parameter dictionary",
 "C76": "partition of priors",
 "C77": "resolution order and use",
 "C78": "whole build pipeline as Except program; closedness invariant",
 "C79": "transforms as bijections of intervals; equivalence of systems",
 "C80": "lookup by name, iff",
 "C81": "acceptance iff",
 "C82": "driver as Except program with oracle solvers",
 "C83": "success flag vs residuals",
 "C84": "check of fixed values",
 "C85": "pack/unpack as inverse index maps",
 "C86": "per-draw pipeline; label = first failing stage, iff",
 "C87": "samplers over abstract engines; bounds and determinism",
 "C88": "norms as sums of squares of matrix residuals",
 "C89": "solve_model as Except program; links C36, C61, C68",
 "C90": "memo tables as state; every history of calls returns what a fresh call returns",
 "C91": "permutation matrices; residual and potentials",
 "C92": "selection matrices; induction over dates along every trajectory",
 "C93": "HasDerivAt of observation equations; lag chains by induction",
 "C94": "diagonal placement, iff prefix",
 "C95": "acceptance iff; state after histories",
 "C96": "calendar arithmetic; exact table",
 "C97": "autocovariance recursion",
 "C98": "perturbation of eigenvalues: HasDerivAt, continuity of roots, counting",
 "C99": "arrays with shapes; induction over nesting",
 "C100": "graphs with values; rewrite at any place preserves evaluation",
 "C101": "Dynare token printer and an independent Dynare expression grammar; same value by induction",
 "C102": "line breaking of declarations; induction over names",
 "C103": "model block; residual equality",
 "C104": "steady-state block; sp.cse contract",
 "C105": "decimal rounding",
 "C106": "maximal-munch lexer; inductive spelling relation, existence and uniqueness",
 "C107": "recursive descent with fuel vs inductive grammar; both directions for all texts",
 "C108": "printer at character level; printed text spells printed tokens, then C107",
 "C109": "string encoding with separators; split/join inverse",
 "C110": "positions in character lists; induction over the text",
 "C111": "rows of the report; list algebra",
 "C112": "composition of the grammar (C107), conversion (C20, C51), expansion (C09) and solution (C23, C14) theorems: written equations hold iff the plain equations vanish; first-order conditions are derivatives of the discounted Lagrangian of the text; problems with definitions by showing that the substituted Lagrangian contains no defined name at any date and constructing the variation from the flattened definitions.",
 "C113": "Model/Plotting.prepareGrid, irfGrid; closed form of the list of places, division with remainder.",
 "C114": "Model/Plotting.plotIrf, plotSimulation, plotPriors, plotCorner, kalmanGroup; exact characterisation by induction on scenarios and panels, concrete counterexamples.",
 "C115": "Model/Plotting.plotEigenvalues, filterEigenvalues, axisLimits, arrows over the reals with infinity and NaN; list induction and linear arithmetic.",
 "C116": "Model/Plotting.plotSummary, offDiagonal, diagonal; counting.",
 "C117": "Model of statespace_from_gcn with simultaneous graph replacement; entries evaluated through replace_at, derivatives from C39.",
 "C118": "Loop modelled as a fold over pairs; invariants on the cutoff; SVD as an argument with LAPACK's contract.",
 "C119": "List filters over equations and over the columns of the matrices of C39.",
 "C120": "lexer + grammar + loader + block construction composed (as for C112), with `Sets`/`Calibrates`/`Starts` stated on the parsed file; each model dictionary is shown to be exactly the stated entries by following built_dicts; distributions by the C55 model of the loader plus a model of to_distribution.py with PreliZ as an uninterpreted predicate.",
 "C121": "compile.py modelled with a node per pytensor input; substitution of steady-state values by eval_subsSeq, slot lookup shown sound so the compiled environment agrees with the period's valuation; derivative by the chain rule on SExpr.diff; composed with C29/C30 for the stacked system.",
 "C123": "Model/SSGraphs.lean: pytensor scalar graphs (`TG`) with values and pytensor's gradient rules, error graphs, Jacobian stacking, connectivity errors, packing, and the keyword handling up to the scipy calls; proved in Props/SSGraphs.lean by a chain rule for graphs along curves (HasDerivAt, Mathlib), symmetry of second derivatives of graphs, and the backward transforms of C85.",
 "C124": "build_report as the list of the pieces of text it appends (Model/Report.lean), from the outcome of compileGcn; lines specified by HasLine, wrapping by WrapsWell, by induction over the names.",
 "C122": "data_from_prior over oracles for the generator, the prior draws and the simulated trajectories with their laws as hypotheses (Model/DataFromPrior.lean); counting missing values by induction over columns and rows.",
 "C125": "Model/LoadSimplified.lean repeats block conversion and loading with `try_simplify=True`, recording the solutions used; induction over the elimination loop and over the blocks relates it to the unsimplified loader (C53) and, through C112, to the text.",
 "C126": "Model/ValidationText.lean: the text of GCNValidationError as built from source, place, annotation and note, the location tables of block conversion, and the three errors raised by block checks; alignment by relating str.splitlines to splitting at newlines and by induction over the rows.",
 "C127": "Model/DirectConvert.lean on top of Model/ToSympy.lean; list induction over components, blocks and calibration statements (last assignment wins), values through C51.",
 "C128": "Model/FigAcf.lean: the figure as the list of panels with drawn points; list lemmas relating panels to models and variables.",
 "C129": "Model/Figures.lean: each figure as the list of what is drawn; list induction, order arguments for colour thresholds and variances, C113 (grid), C114 (impulse responses) and C115 (arrows).",
 "C130": "chain rule over the symbols of each equation at the steady state, matched with the Jacobian entries of the linearisation; C89 and C37 for the table; C112's block lemmas, with values instead of zeros, for the text",
 "C131": "Model the two value loops through `__setitem__` on a copy that still shares its metadata, `sort_keys`, `__reduce__`/`_unpickle_symbol_dictionary` and the subclass; prove the loop converts the processed prefix and leaves the heap alone; sorting through the string round trip of C03.",
 "C132": "solvePF composes the compiled problem, boundary, shock and parameter matrices, stacked system and root finder; InPeriod/OnPath/GuessValue are the specification; proved by composing C30, C35, C57, C58, C121 and the text bridge",
 "C133": "Composition of the text-level bridge (C107, C129: the loaded equations have the values of the written ones), C70 (steady-state conversion = constant path with zero shocks) and C83 (meaning of the success flag); specification: AtRest, Carries, Gcn.writtenGap. Example: a GCN text read, its steady state 4 reported with success.",
 "C134": "Model/SolverReuse.lean: solver objects with their changing fields (direction memory, merit_fun slot, history, radius), calls of sparse_root and solve_perfect_foresight in any order and size; the resets make the answers independent of the state, except of the stored merit function",
 "C135": "Composition of the text-level loader theorems (C107/C112) with the Dynare printing and reading theorems (C103): line i of the block is worth minus the written gap at every date; quantified over all files, views and paths.",
 "C136": "New glue model (matrices at a draw, solver call, return to the user's order); the drawn matrices are shown to be those of linearize_model with rows and columns permuted, the exactness of R and a Cauchy-Schwarz bound on the residual give the rate.",
 "C137": "charPoly is det(A + zB + z²C) in ℂ[X]; the model's pencil has that determinant up to sign (Schur complement over the lead block), and a triangular decomposition makes its roots the ratios of the diagonals, so the counted eigenvalues are the roots with multiplicity; C130 turns a root into growing deviations of the written equations; 0 = 0 is the counterexample",
 "C138": "modelSolveGensys, solveModel, stationaryCov, autocovarianceMatrix as before; new specification: covariance form, conditional expectations as self-adjoint projections, innovations, equilibrium. Forward: the expected path from each date is a vanishing path (C68/Gen.unique_iff), then B + C T is injective; backward: substitution and T^t -> 0. Moments by the gap T^t (V0 - S) T'^t.",
 "C139": "New Model/BKReport.lean (computeBK with an arbitrary sort, checkBKCondition, bkMessage, summarize). The table by the sort's specification and the size of the decomposition; independence of order by C137 (the count is that of the characteristic polynomial, which changes sign at most when rows and columns are permuted).",
 "C140": "Perturbation/Gensys/LinearSolve models; the permuted model's matrices are row/column permutations (jacobian entries depend on the shock list by membership only); gensys via uniqueness of the vanishing path, cycle reduction by equivariance of every pass and of the 1-norm, covariance by uniqueness of the Lyapunov solution, responses from the closed form.",
 "C141": "Perturbation/Gensys/LinearSolve models; the rescaled model's matrices are P·M·S with P, S diagonal and invertible, so vanishing paths correspond and uniqueness of the gensys solution transfers; covariance by uniqueness of the Lyapunov solution, responses from the closed form.",
 "C142": "Derivatives at the steady state of the rewritten equation are a nonzero multiple of the original's (product rule with the residual zero, chain rule for log), hence a row scaling of the linear system; then as C141.",
 "C143": "Statistics and Simulate models; S = T S T' + R Q R' from the Lyapunov contract, covAfter = S - T^t S T^t' ≥ 0, Cauchy-Schwarz by the discriminant; responses from the closed form T^t R and the limit of covAfter.",
 "C144": "PFSolve model through C132_solved_guess: the steady state at every date is a path of the run (initial, terminal and guess values are the same function of the dictionary); simulation by induction over the draws.",
 "C145": "Model/ErrorCatalog (generated from the file), Model/Structural: the handler, the conversion of an exception and parse_expression's errors as functions of what pyparsing reports; substring tests shown equal to `<:+:`; catalog facts by kernel evaluation over the whole catalog; then case analysis",
 "C146": "no new code; `LinearModel` states linearity on every path, independent of the compiled form; C132_solved_guess applied to the path of the linear rule, C37 closed form of simulate, C39 entries as derivatives and uniqueness of derivatives",
 "C147": "Model/NodeText: the str methods and the collector as structural recursions; the fully parenthesised text is shown to spell tokens that C107's grammar reads (induction on the expression), distinctness from C106/C107 uniqueness; queries by induction on `visited`",
 "C148": "No new code: RewriteSpec says when two files state the same; token sequences and grammar are unique (C106, C107), the built blocks of permuted files are permuted and the merges are sorted by distinct keys (C19, C52), plain blocks carry exactly their stated equations (C112), and the policy matrices of reordered models are reordered (C140).",
 "C149": "No new code: PrintLoadSpec says which files; the printed text parses as the file without tags and shock distributions (C108), and the loader depends on assumptions through the symbols it makes only and on shock distributions not at all (congruence through every function of Loader and LoadSimplified)."
}
