{
 "b081": "Equivalent edit: expressions mixing operators of one level raise TypeError before the result is used, so no claim is false of the edited program.",
 "c058": "Equivalent edit: a call without any shock specification raises (C38_violated), so the default is never used.",
 "f001": "equivalent on every use: the block matrix is only built with a zero upper-right block, so the column order inside that block cannot be observed",
 "g061": "Equivalent up to relabelling of integer seeds: which sequence an integer seed selects is not observable, only that equal seeds give equal draws.",
 "n032": "The branch for more unstable roots than rows cannot be reached: the count is over the rows.",
 "q027": "Equivalent edit: of the steady-state relations only the symbols they contain are used, never their value.",
 "q028": "Equivalent edit: of the steady-state relations only the symbols they contain are used, never their value.",
 "q065": "Equivalent edit for the claim: a float exponent printed as a power has the same value as the square root.",
 "q077": "Equivalent edit: arguments are passed by keyword.",
 "q112": "The keys of the steady-state dictionary are steady-state symbols already.",
 "q115": "Unreachable: the grammar produces an operand after every operator.",
 "q116": "Unreachable: the grammar nests only lists with an operator.",
 "q163": "Unreachable: the response always has the length of the array (proved in C37's proof).",
 "q169": "Equivalent for Newton directions: an uphill direction is flipped.",
 "u040": "A constant table; no claim names the keyword.",
 "u052": "Unreachable: an integer discount factor raises AttributeError (C12).",
 "w037": "equivalent: every solve resets the memory of the search direction before it is read",
 "w044": "the history kept after an exception is claimed nowhere",
 "w059": "the value of an array outside its bounds cannot be observed",
 "w072": "only membership of the list is used, duplicates do not show"
}