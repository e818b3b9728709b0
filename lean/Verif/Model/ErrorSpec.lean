import Verif.Model.ErrorText
/-! # Specification of C109–C111: places in a text -/

namespace GE.Err

/-- the character at position `pos` (counted from 0; the end of the text is a position too) is in line `line` (counted from 1),
that line reads `src`, and it is character number `column` (counted from 1) of the line -/
def IsAt (text : Str) (pos line : Nat) (column : Int) (src : Str) : Prop :=
  ∃ pre post, text = pre ++ src ++ post ∧ (pre = [] ∨ ∃ p, pre = p ++ ['\n']) ∧ (post = [] ∨ ∃ p, post = '\n' :: p) ∧ '\n' ∉ src ∧
    line = pre.count '\n' + 1 ∧ 1 ≤ column ∧ column - 1 ≤ src.length ∧ (pos : Int) = pre.length + (column - 1)

/-- `w` stands in `row` from character number `k` (counted from 0) on -/
def StandsAt (w row : Str) (k : Nat) : Prop := ∃ a b, row = a ++ w ++ b ∧ a.length = k

end GE.Err
