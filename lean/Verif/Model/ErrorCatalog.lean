import Verif.Model.ErrorText
/-! # The error catalog, `gEconpy/parser/error_catalog.py`

Written by `tools/gen_catalog.py` from the members of `ErrorCode`. -/

namespace GE.Cat

/-- `chars "ab"` is `['a', 'b']`, that is `"ab".toList` spelt out -/
local syntax "chars " str : term
local macro_rules
  | `(chars $s) => do
    let cs := (s.getString.toList.map Lean.Syntax.mkCharLit).toArray
    `([$cs,*])

/-- `ErrorInfo` (error_catalog.py:5-25) -/
structure Info where
  title : Str
  explanation : Str
  causes : List Str
  fixes : List Str
  deriving DecidableEq

/-- `ErrorCode.E000` (error_catalog.py:38-51) -/
def infoE000 : Info where
  title := chars "Syntax error"
  explanation := chars "The parser encountered unexpected input."
  causes := [chars "Typo in the source code",
    chars "Missing or extra punctuation",
    chars "Invalid expression"]
  fixes := [chars "Check the line for typos",
    chars "Verify the syntax matches GCN format",
    chars "Compare with working examples"]

/-- `ErrorCode.E001` (error_catalog.py:53-66) -/
def infoE001 : Info where
  title := chars "Missing semicolon"
  explanation := chars "Statements in GCN files must end with a semicolon."
  causes := [chars "Forgot semicolon at end of equation",
    chars "Forgot semicolon after block component (e.g., 'identities { ... };')",
    chars "Forgot semicolon after calibration assignment"]
  fixes := [chars "Add ';' at the end of the statement",
    chars "Check that each equation ends with ';'",
    chars "Check that each block component ends with '};'"]

/-- `ErrorCode.E002` (error_catalog.py:68-81) -/
def infoE002 : Info where
  title := chars "Unbalanced braces"
  explanation := chars "Opening and closing braces must be balanced. Every '{' needs a matching '}'."
  causes := [chars "Missing closing brace '}'",
    chars "Extra opening brace '{'",
    chars "Brace inside a string or comment"]
  fixes := [chars "Count opening and closing braces to find the mismatch",
    chars "Check indentation to find missing braces",
    chars "Use an editor with brace matching"]

/-- `ErrorCode.E003` (error_catalog.py:83-94) -/
def infoE003 : Info where
  title := chars "Missing block name"
  explanation := chars "Every block must have a name after the 'block' keyword."
  causes := [chars "Forgot to name the block",
    chars "Typo in 'block' keyword"]
  fixes := [chars "Add a name after 'block': block HOUSEHOLD { ... }",
    chars "Check spelling of 'block' keyword"]

/-- `ErrorCode.E004` (error_catalog.py:96-108) -/
def infoE004 : Info where
  title := chars "Empty block"
  explanation := chars "A block was declared but contains no components (identities, calibration, etc.)."
  causes := [chars "Block not yet implemented",
    chars "Accidentally deleted block contents",
    chars "Copy-paste error left empty braces"]
  fixes := [chars "Add block components: identities, calibration, controls, etc.",
    chars "Remove the empty block if not needed"]

/-- `ErrorCode.E005` (error_catalog.py:110-122) -/
def infoE005 : Info where
  title := chars "Missing equation right-hand side"
  explanation := chars "Equations must have an expression on the right side of the equals sign."
  causes := [chars "Incomplete equation: Y[] = ;",
    chars "Accidentally deleted the RHS",
    chars "Copy-paste error"]
  fixes := [chars "Add an expression after the '='",
    chars "Check if the equation was accidentally truncated"]

/-- `ErrorCode.E006` (error_catalog.py:124-137) -/
def infoE006 : Info where
  title := chars "Missing expression after operator"
  explanation := chars "Binary operators (+, -, *, /, ^) require an expression on both sides."
  causes := [chars "Incomplete expression: Y[] = C[] + ;",
    chars "Double operator: Y[] = C[] + + I[]",
    chars "Trailing operator at end of line"]
  fixes := [chars "Add an expression after the operator",
    chars "Remove the extra operator",
    chars "Check for accidentally deleted terms"]

/-- `ErrorCode.E007` (error_catalog.py:139-152) -/
def infoE007 : Info where
  title := chars "Unbalanced parentheses"
  explanation := chars "Opening and closing parentheses must be balanced."
  causes := [chars "Missing closing parenthesis: log(C[]",
    chars "Extra opening parenthesis",
    chars "Nested parentheses not closed properly"]
  fixes := [chars "Count opening and closing parentheses",
    chars "Check function calls have closing ')'",
    chars "Use an editor with parenthesis matching"]

/-- `ErrorCode.E008` (error_catalog.py:154-165) -/
def infoE008 : Info where
  title := chars "Empty function arguments"
  explanation := chars "Mathematical functions require at least one argument."
  causes := [chars "Empty function call: log()",
    chars "Missing argument: exp()"]
  fixes := [chars "Add an argument to the function: log(C[])",
    chars "Check if the argument was accidentally deleted"]

/-- `ErrorCode.E009` (error_catalog.py:167-180) -/
def infoE009 : Info where
  title := chars "Invalid distribution syntax"
  explanation := chars "Distribution specifications must follow the format: param ~ Distribution(args)."
  causes := [chars "Missing tilde: alpha Beta(a=1, b=1)",
    chars "Wrong separator: alpha = Beta(a=1, b=1)",
    chars "Misspelled distribution name"]
  fixes := [chars "Use tilde for distributions: alpha ~ Beta(a=1, b=1)",
    chars "Check distribution name spelling",
    chars "Use '=' for fixed values, '~' for distributions"]

/-- `ErrorCode.E010` (error_catalog.py:182-196) -/
def infoE010 : Info where
  title := chars "Invalid variable time index"
  explanation := chars "Time indices in variable brackets must be integers, 'ss' for steady state, or empty."
  causes := [chars "Using letters instead of numbers: Y[abc] instead of Y[]",
    chars "Typo in 'ss': Y[SS] instead of Y[ss]",
    chars "Invalid expression in brackets"]
  fixes := [chars "Use Y[] for current period",
    chars "Use Y[-1] for lagged values",
    chars "Use Y[1] for lead values",
    chars "Use Y[ss] for steady state"]

/-- `ErrorCode.E011` (error_catalog.py:198-211) -/
def infoE011 : Info where
  title := chars "Unexpected character"
  explanation := chars "The parser encountered a character that is not valid in GCN syntax."
  causes := [chars "Using @ or other special characters",
    chars "Unicode characters that look like ASCII but aren't",
    chars "Copy-paste from formatted document introduced special characters"]
  fixes := [chars "Remove or replace the invalid character",
    chars "Check for invisible Unicode characters",
    chars "Retype the line manually"]

/-- `ErrorCode.E012` (error_catalog.py:213-225) -/
def infoE012 : Info where
  title := chars "Missing equals sign"
  explanation := chars "Equations must have an equals sign separating the left-hand side from the right-hand side."
  causes := [chars "Forgot the equals sign: Y[] C[] + I[]",
    chars "Accidentally deleted the equals sign",
    chars "Expression written without assignment"]
  fixes := [chars "Add '=' between LHS and RHS: Y[] = C[] + I[]",
    chars "Check if the equation was accidentally corrupted"]

/-- `ErrorCode.E013` (error_catalog.py:227-242) -/
def infoE013 : Info where
  title := chars "Unknown block component"
  explanation := chars "Block components must be one of: definitions, controls, objective, constraints, identities, shocks, calibration."
  causes := [chars "Typo in component name: 'identites' instead of 'identities'",
    chars "Using wrong name: 'equations' instead of 'identities'",
    chars "Made up component name"]
  fixes := [chars "Check spelling of component name",
    chars "Valid components: definitions, controls, objective, constraints, identities, shocks, calibration"]

/-- `ErrorCode.E014` (error_catalog.py:244-255) -/
def infoE014 : Info where
  title := chars "Unknown equation tag"
  explanation := chars "Equation tags must be one of the recognized tags."
  causes := [chars "Typo in tag name",
    chars "Using unsupported tag"]
  fixes := [chars "Check spelling of tag name",
    chars "Valid tags: @exclude"]

/-- `ErrorCode.E015` (error_catalog.py:257-268) -/
def infoE015 : Info where
  title := chars "Unknown assumption"
  explanation := chars "Assumption names must be one of the recognized mathematical assumptions."
  causes := [chars "Typo in assumption name: 'postive' instead of 'positive'",
    chars "Using unsupported assumption type"]
  fixes := [chars "Check spelling of assumption name",
    chars "Valid assumptions: positive, negative, nonpositive, nonnegative, real, integer, finite, unit_interval"]

/-- `ErrorCode.E016` (error_catalog.py:270-282) -/
def infoE016 : Info where
  title := chars "Component outside block"
  explanation := chars "Block components like 'identities', 'calibration', etc. must appear inside a block."
  causes := [chars "Missing 'block NAME {' before component",
    chars "Closed the block too early",
    chars "Typo in 'block' keyword"]
  fixes := [chars "Wrap the component in a block: block NAME { ... };",
    chars "Check that the block's opening brace is in the right place"]

/-- `ErrorCode.E100` (error_catalog.py:287-298) -/
def infoE100 : Info where
  title := chars "Duplicate block name"
  explanation := chars "Each block must have a unique name within the model."
  causes := [chars "Copy-pasted a block and forgot to rename it",
    chars "Two blocks accidentally given the same name"]
  fixes := [chars "Rename one of the duplicate blocks",
    chars "Merge the blocks if they should be one"]

/-- `ErrorCode.E101` (error_catalog.py:300-311) -/
def infoE101 : Info where
  title := chars "Duplicate parameter definition"
  explanation := chars "A parameter can only be calibrated once across all blocks."
  causes := [chars "Same parameter calibrated in multiple blocks",
    chars "Parameter accidentally defined twice in same calibration section"]
  fixes := [chars "Remove one of the duplicate definitions",
    chars "Use different parameter names if they should be distinct"]

/-- `ErrorCode.E102` (error_catalog.py:313-324) -/
def infoE102 : Info where
  title := chars "Unknown distribution"
  explanation := chars "The distribution name is not recognized."
  causes := [chars "Typo in distribution name: 'Betta' instead of 'Beta'",
    chars "Using a distribution not supported by PyMC/preliz"]
  fixes := [chars "Check spelling of distribution name",
    chars "Common distributions: Normal, Beta, Gamma, Uniform, Exponential, HalfNormal"]

/-- `ErrorCode.E103` (error_catalog.py:326-334) -/
def infoE103 : Info where
  title := chars "Unknown wrapper"
  explanation := chars "The distribution wrapper is not recognized."
  causes := [chars "Typo in wrapper name: 'Truncatd' instead of 'Truncated'"]
  fixes := [chars "Check spelling of wrapper name",
    chars "Valid wrappers: Truncated, Censored, MaxEnt"]

/-- `ErrorCode.W001` (error_catalog.py:338-351) -/
def infoW001 : Info where
  title := chars "Unused parameter"
  explanation := chars "A parameter is calibrated but never used in any equation."
  causes := [chars "Parameter defined for future use",
    chars "Equation using the parameter was deleted",
    chars "Typo in parameter name in equations"]
  fixes := [chars "Remove the unused parameter if not needed",
    chars "Check if equations should use this parameter",
    chars "Verify parameter name spelling in equations"]

/-- `ErrorCode.W002` (error_catalog.py:353-364) -/
def infoW002 : Info where
  title := chars "Controls without objective"
  explanation := chars "Control variables are defined but no objective function is specified."
  causes := [chars "Objective function not yet added",
    chars "Block is meant to be an identity block, not optimization"]
  fixes := [chars "Add an objective section if this is an optimization problem",
    chars "Remove controls if this is not an optimization problem"]

/-- `ErrorCode.W003` (error_catalog.py:366-377) -/
def infoW003 : Info where
  title := chars "Objective without controls"
  explanation := chars "An objective function is specified but no control variables are defined."
  causes := [chars "Forgot to add controls section",
    chars "Controls defined in wrong block"]
  fixes := [chars "Add a controls section with the choice variables",
    chars "Move objective to the block with controls"]

/-- the members of `ErrorCode` in order (error_catalog.py:28-377) -/
def catalog : List (Str × Info) := [
  ("E000".toList, infoE000),
  ("E001".toList, infoE001),
  ("E002".toList, infoE002),
  ("E003".toList, infoE003),
  ("E004".toList, infoE004),
  ("E005".toList, infoE005),
  ("E006".toList, infoE006),
  ("E007".toList, infoE007),
  ("E008".toList, infoE008),
  ("E009".toList, infoE009),
  ("E010".toList, infoE010),
  ("E011".toList, infoE011),
  ("E012".toList, infoE012),
  ("E013".toList, infoE013),
  ("E014".toList, infoE014),
  ("E015".toList, infoE015),
  ("E016".toList, infoE016),
  ("E100".toList, infoE100),
  ("E101".toList, infoE101),
  ("E102".toList, infoE102),
  ("E103".toList, infoE103),
  ("W001".toList, infoW001),
  ("W002".toList, infoW002),
  ("W003".toList, infoW003)]

end GE.Cat
