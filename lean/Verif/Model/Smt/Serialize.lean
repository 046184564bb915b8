import Verif.Model.Smt.Bit

/-!
# `serialize` of formulas (smt_utils.py:23-35, 45-46, 58-59, 72-73)

Text is a list of characters.  What pysmt prints for a term (`v.value.serialize()`) is an argument `txt`.
-/

namespace HW.Smt

def Formula.andHead : List Char := ['A', 'n', 'd', '(']
def Formula.orHead : List Char := ['O', 'r', '(']
def Formula.impliesHead : List Char := ['I', 'm', 'p', 'l', 'i', 'e', 's', '(']

/-- `",\n".join(parts)`. -/
def joinParts : List (List Char) → List Char
  | [] => []
  | [a] => a
  | a :: b :: l => a ++ ',' :: '\n' :: joinParts (b :: l)

/-- `_op_to_str` (smt_utils.py:29-35), the parts already printed. -/
def opToStr (head : List Char) (parts : List (List Char)) (pre : List Char) : List Char :=
  pre ++ (head ++ '\n' :: (joinParts parts ++ '\n' :: (pre ++ [')'])))

mutual
/-- `_value_to_str` (23-27), `And.serialize`, `Or.serialize`, `Implies.serialize`. -/
def Formula.serialize (txt : Term → List Char) (indent : List Char) : List Char → Formula → List Char
  | pre, .bit t => pre ++ txt t
  | pre, .and l => opToStr Formula.andHead (Formula.serializes txt indent (pre ++ indent) l) pre
  | pre, .or l => opToStr Formula.orHead (Formula.serializes txt indent (pre ++ indent) l) pre
  | pre, .implies p q => opToStr Formula.impliesHead
      [Formula.serialize txt indent (pre ++ indent) p, Formula.serialize txt indent (pre ++ indent) q] pre
/-- `[_value_to_str(v, new_line_prefix, indent) for v in vs]`. -/
def Formula.serializes (txt : Term → List Char) (indent : List Char) : List Char → List Formula → List (List Char)
  | _, [] => []
  | pre, f :: l => Formula.serialize txt indent pre f :: Formula.serializes txt indent pre l
end

end HW.Smt
