#!/usr/bin/env python3
"""Regenerates /verif/properties.jsonl (kept as a script so the list is easy to extend)."""
import json, os
P = []
def p(title, statement, quantifier, why, anchors):
    P.append(dict(id="C%02d" % (len(P)+1), title=title, statement=statement,
                  quantifier=quantifier, why_tests_cant=why, anchors=anchors))

BV='hwtypes/bit_vector.py'
ABC='hwtypes/bit_vector_abc.py'
UT='hwtypes/bit_vector_util.py'

p("Stored value is always canonical",
  "Every BitVector[n] obtained from the constructor, from any method or operator, or by any sequence of item assignments satisfies 0 <= x.as_uint() < 2**n; no operation can leave an object whose value does not fit its declared width.",
  "every width n >= 0, every constructor argument, every method/operator with every operand, every sequence of item assignments",
  "Widths and integers are unbounded and the invariant must survive arbitrary compositions of operations; tests sample widths 1,2,4,8 and a few random values.",
  [f"{BV}:BitVector.__init__", f"{BV}:BitVector.__setitem__", f"{BV}:BitVector.as_uint"])
p("Constructor arithmetic",
  "BitVector[n](v) denotes v mod 2**n for every Python int v (also negative and arbitrarily large); from a Bit it is 0/1; from another BitVector it is the same number reduced mod 2**n; from a sequence it is the number whose bit i is the truth value of element i, reduced mod 2**n; any object without an integer interpretation is rejected with TypeError.",
  "every width, every int, bool, Bit, BitVector of every other width, sequence of every length, and other object",
  "Infinite domain of ints, lengths and widths (tests check 7 literals at width 2).",
  [f"{BV}:BitVector.__init__", f"{BV}:seq2int"])
p("Two's-complement interpretation",
  "For n >= 1, x.as_sint() is the unique integer in [-2**(n-1), 2**(n-1)) congruent to x.as_uint() mod 2**n, so T(x.as_sint()) == T(x.as_uint()) == x; int(x) is as_sint for SIntVector and as_uint otherwise; a zero-width vector has no sign bit and as_sint raises IndexError.",
  "every width and every value",
  "The sign boundary lies at a different value for each of infinitely many widths.",
  [f"{BV}:BitVector.as_sint", f"{BV}:BitVector.__int__", f"{BV}:SIntVector.__int__"])
p("Bit list and binary-string round trips",
  "x.bits() has exactly n entries, each 0 or 1, least significant first; T(x.bits()) == x; seq2int and int2seq are mutually inverse on n-bit numbers; binary_string() has n characters, most significant first, and reading it in base 2 gives as_uint(); as_binary_string() is 0b followed by it; as_bool_list() is the list of bits as bools, and T(x.as_bool_list()) == x.",
  "every width, every value, every bit list",
  "Round trips must hold for every length; tests use one literal.",
  [f"{BV}:seq2int", f"{BV}:int2seq", f"{BV}:BitVector.bits", f"{BV}:BitVector.binary_string", f"{BV}:BitVector.as_binary_string", f"{BV}:BitVector.as_bool_list"])
p("Modular arithmetic",
  "bvadd, bvsub, bvmul and bvneg (and +, -, *, unary -) compute exactly the integer sum, difference, product and negation of the operands modulo 2**n; hence they form a commutative ring in which the signed and the unsigned reading give the same result bits.",
  "every width and every pair of operands",
  "Overflow behaviour at every width; tests sample random operands at four widths.",
  [f"{BV}:BitVector.bvadd", f"{BV}:BitVector.bvsub", f"{BV}:BitVector.bvmul", f"{BV}:BitVector.bvneg"])
p("Bitwise operations are pointwise",
  "Bit i of bvnot/bvand/bvor/bvxor/bvnand/bvnor/bvxnor is the Boolean function of bit i of the operands, for every i < n.",
  "every width, operands and bit position",
  "Pointwise law over every bit position of every width (negative intermediate ints such as ~x must be masked correctly).",
  [f"{BV}:BitVector.bvnot", f"{BV}:BitVector.bvand", f"{BV}:BitVector.bvor", f"{BV}:BitVector.bvxor", f"{ABC}:AbstractBitVector.bvnand", f"{ABC}:AbstractBitVector.bvnor", f"{ABC}:AbstractBitVector.bvxnor"])
p("Shifts for every shift amount",
  "For vector operands of one width, bvshl multiplies by 2**k mod 2**n, bvlshr is floor division of the unsigned value by 2**k and bvashr is floor division of the signed value by 2**k; when k >= n they give 0, 0 and the sign fill. A Python int shift amount behaves as that amount.",
  "every width, every value, every shift amount (vector or int)",
  "Shift amounts far beyond the width and the interaction with coercion cannot be enumerated.",
  [f"{BV}:BitVector.bvshl", f"{BV}:BitVector.bvlshr", f"{BV}:BitVector.bvashr", f"{BV}:_coerce"])
p("Rotations",
  "For n >= 1, bit (i+k) mod n of x.bvrol(k) is bit i of x, and bit i of x.bvror(k) is bit (i+k) mod n of x, for every amount k; rotating left and right by the same amount are mutually inverse; the type is unchanged.",
  "every width >= 1, every value, every rotation amount",
  "Modular index arithmetic over all widths (non powers of two in particular); the repo has no rotation test at all.",
  [f"{BV}:BitVector.bvrol", f"{BV}:BitVector.bvror"])
p("Unsigned comparisons",
  "bveq, bvne, bvult, bvule, bvugt, bvuge (and ==, !=, <, <=, >, >= on unsigned types) agree with the order of as_uint(); exactly one of <, ==, > holds; bvcomp is the one-bit vector of equality.",
  "every width and every pair of values",
  "Order laws over all pairs.",
  [f"{BV}:BitVector.bvult", f"{BV}:BitVector.bvule", f"{BV}:BitVector.bvugt", f"{BV}:BitVector.bvuge", f"{BV}:BitVector.bveq", f"{BV}:BitVector.bvne", f"{BV}:BitVector.bvcomp"])
p("Signed comparisons",
  "bvslt, bvsle, bvsgt, bvsge (and <, <=, >, >= on SIntVector) agree with the order of as_sint(); exactly one of signed <, ==, signed > holds.",
  "every width >= 1 and every pair of values",
  "The derived forms (not, or) must be right at the sign boundary of every width.",
  [f"{BV}:BitVector.bvslt", f"{ABC}:AbstractBitVector.bvsle", f"{ABC}:AbstractBitVector.bvsgt", f"{ABC}:AbstractBitVector.bvsge"])
p("Unsigned division and remainder",
  "For b != 0, a == (a // b) * b + a % b with a % b < b on unsigned values and no wrap-around; a // 0 is the all-ones vector and a % 0 is a (SMT-LIB totalisation).",
  "every width and every pair of operands including divisor zero",
  "Must hold for every pair at every width.",
  [f"{BV}:BitVector.bvudiv", f"{BV}:BitVector.bvurem"])
p("Signed division and remainder follow SMT-LIB",
  "bvsdiv and bvsrem are the SMT-LIB operations of that name (quotient truncated toward zero, remainder with the sign of the dividend), on every operand including divisor zero.",
  "every width >= 1 and every pair of operands",
  "The repo has no test of signed division with operands of different sign; only a proof over all operands can show where the two definitions part.",
  [f"{BV}:BitVector.bvsdiv", f"{BV}:BitVector.bvsrem"])
p("Signed division and remainder are a division algorithm",
  "For b != 0 bvsdiv and bvsrem satisfy a == q*b + r in the modular sense, with q = floor(a/b) reduced to n bits and r the floor remainder (0 <= r < b or b < r <= 0, so r has the sign of the divisor); for b == 0, q is all ones and r is a.",
  "every width >= 1, every pair of operands",
  "Includes the single overflowing case (-2**(n-1)) // -1 at every width.",
  [f"{BV}:BitVector.bvsdiv", f"{BV}:BitVector.bvsrem"])
p("Concatenation layout",
  "a.concat(b) has width |a|+|b|, its low |a| bits are a and its high bits are b (value a + b*2**|a|); slicing recovers both parts; concatenation is associative; its bits() is a.bits() + b.bits().",
  "every pair of widths and values",
  "Two independent unbounded widths.",
  [f"{BV}:BitVector.concat"])
p("Indexing and slicing",
  "x[i] is bit i for 0 <= i < n and bit n+i for -n <= i < 0, and IndexError is raised for every other int; x[a:b:s] is the vector whose bits are exactly Python's list slice of x.bits() with those bounds, for every (possibly missing, negative, out-of-range) bound and every step, and its width is the number of selected bits; any other key raises TypeError.",
  "every width, value, index, and slice triple",
  "Unbounded space of start/stop/step combinations; slice clamping is notoriously error-prone.",
  [f"{BV}:BitVector.__getitem__"])
p("Item assignment is a single-bit update",
  "After x[i] = b (b a Bit, bool, 0 or 1), x[i] == b and every other bit and the type of x are unchanged; out-of-range indices raise IndexError, non-bit values raise ValueError, slices raise NotImplementedError, and a failed assignment leaves x unchanged; after any history of assignments each bit holds the last value assigned to it.",
  "every width, value, index, bit and every history of assignments",
  "Histories are unbounded; tests do three assignments on one literal.",
  [f"{BV}:BitVector.__setitem__"])
p("Zero extension",
  "x.zext(k) has width n+k and the same as_uint(), for every k >= 0; negative k raises ValueError.",
  "every width, value and k", "unbounded widths and amounts",
  [f"{BV}:BitVector.zext"])
p("Sign extension",
  "x.sext(k) has width n+k and the same as_sint(), for every k >= 0; negative k raises ValueError.",
  "every width >= 1, value and k (k = 0 included)",
  "Tests only draw k >= 15; the boundary k = 0 is never hit.",
  [f"{BV}:BitVector.sext"])
p("Repetition",
  "x.repeat(r) has width r*n and bit j equal to bit j mod n of x for every r >= 1; r <= 0 raises ValueError.",
  "every width, value and r", "unbounded widths and counts; no unit test exists",
  [f"{BV}:BitVector.repeat"])
p("Add with carry",
  "(s, c) = a.adc(b, cin) satisfies s.as_uint() + 2**n * c == a.as_uint() + b.as_uint() + cin with s of a's type and c a Bit, so chaining adc over limbs adds wide numbers exactly.",
  "every width, operands and carry", "unbounded widths; exactness, not just modular equality",
  [f"{BV}:BitVector.adc"])
p("Signed overflow detector",
  "overflow(a, b, a+b) is true iff the mathematical sum of the signed values of a and b does not fit in n bits.",
  "every width >= 1 and pair of operands", "holds only as an all-pairs statement",
  [f"{BV}:overflow"])
p("Width mismatch is always rejected",
  "Every binary method and operator applied to two vectors of different widths raises InconsistentSizeError, whichever operand is on the left and whatever their classes; none silently extends or truncates.",
  "every binary method/operator, every pair of different widths, every pair of classes and values",
  "Quadratic in widths and classes and linear in operators; tests try widths 1 and 2 for one class.",
  [f"{BV}:_coerce", f"{BV}:bv_cast", f"{BV}:dispatch_oper", f"{BV}:dispatch_roper"])
p("Operators agree with methods and coerce Python ints on either side",
  "For a vector x of class T and an int k, x op k equals x op T(k), and k op x equals T(k) op x, for every arithmetic, bitwise, shift and comparison operator; on two vectors of the same class the operator equals the corresponding bv method.",
  "every operator, width, class, value and int",
  "Reflected operators are only sampled with random values for which a wrong operand order is nearly invisible (16-bit shifts).",
  [f"{BV}:dispatch_oper", f"{BV}:dispatch_roper", f"{BV}:BitVector.__rrshift__"])
p("Uncoercible operands give TypeError",
  "x op obj and obj op x, for an object that cannot be interpreted as an integer, raise TypeError for arithmetic, bitwise, shift and ordering operators, while x == obj is False and x != obj is True.",
  "every operator, width, class, value, and uncoercible object on either side",
  "No test exercises the reflected error path.",
  [f"{BV}:dispatch_oper", f"{BV}:dispatch_roper"])
p("Signedness of operators follows the class",
  ">>, //, %, <, <=, >, >= are the unsigned operations on BitVector/NumVector/UIntVector pairs and the signed ones on SIntVector pairs; when a BitVector or NumVector meets an SIntVector the signed operation is used whichever side it is on.",
  "every operator, width, class pair and value pair",
  "Depends on Python's subclass-priority rule for reflected operators, for all class pairs.",
  [f"{BV}:SIntVector", f"{BV}:BitVector"])
p("Hash/equality contract",
  "If two vectors of one type are equal then their hashes are equal, and two vectors of the same type with different values or of different types have different hash keys; Bits likewise.",
  "every type and pair of values", "all pairs",
  [f"{BV}:BitVector.__hash__", f"{BV}:Bit.__hash__"])
p("ite selects",
  "c.ite(t, f) for two vectors of one type returns a vector of that type equal to t if c is true and to f otherwise; for a vector condition, nonzero means true; for tuples of equal shape (any nesting) it selects component-wise, so the result equals the selected branch.",
  "every condition, every pair of same-shaped (arbitrarily nested) branches",
  "Nesting depth and width are unbounded.",
  [f"{BV}:Bit.ite", f"{BV}:BitVector.ite", f"{UT}:build_ite", f"{UT}:push_ite", f"{UT}:coerce_branch"])
p("ite type errors do not depend on the condition",
  "Whether c.ite(t, f) raises, and which exception, depends only on the types and shapes of t and f, never on the value of c or of the branches (so a concrete simulation rejects exactly what a symbolic execution rejects).",
  "every pair of branches of arbitrary nesting and both conditions",
  "Quantifies over all shape pairs.",
  [f"{UT}:determine_return_type", f"{UT}:build_ite"])
p("Polymorphic ite result behaves like the selected branch",
  "If t and f are vectors of equal width but different classes, every sign-dependent operator (>>, //, %, <, <=, >, >=, ext) applied to c.ite(t, f) has the value it would have on the selected branch's class, for arbitrarily nested polymorphic values, and so has int(). The class of c.ite(t, f) derives from exactly the predefined classes that both branch classes derive from.",
  "every condition, class pair, nesting depth, value, operator and operand",
  "The dispatch tree is unboundedly deep; tests check four shapes.",
  [f"{UT}:build_VCall", f"{UT}:PolyType.__getitem__", f"{UT}:PolyVector"])
p("Bit is the two-element Boolean algebra",
  "Bit construction accepts exactly Bits, bools, the ints 0 and 1, and objects with a truth value (other ints: ValueError; else TypeError); ~ & | ^ == != are the Boolean operations, also with bool/0/1 operands on either side.",
  "every constructor argument and operand", "every int and object",
  [f"{BV}:Bit", f"{BV}:bit_cast"])
p("Sized vector classes are interned",
  "In every history of subclass creations and size bindings, while T[n] is referenced T[n] always returns the same class object; T[n] has size n and unsized_t T; T[n] is T[m] only if n == m, and T[n] is S[n] only if T is S; a sized class cannot be sized again (TypeError), negative sizes raise ValueError.",
  "every history of class creation/binding operations and every unsized class hierarchy",
  "History-quantified identity property.",
  [f"{ABC}:AbstractBitVectorMeta.__getitem__", f"{ABC}:AbstractBitVectorMeta.__new__"])
p("Sizing preserves the class hierarchy",
  "If S is a subclass of T then S[n] is a subclass of T[n] (and of T and S); no sized class is a subclass of a differently sized class; a class inheriting from two different sizes is rejected with TypeError.",
  "every history building an arbitrary hierarchy, every pair of classes and sizes",
  "Arbitrary DAG hierarchies.",
  [f"{ABC}:AbstractBitVectorMeta.__getitem__", f"{ABC}:AbstractBitVectorMeta.__new__"])
p("Implicit sizing is lossless",
  "The (deprecated) unsized constructor T(v) picks a width (the vector's own for a vector argument, otherwise at least 1 and, for ints, minimal) in which a non-negative int, a vector, a Bit, or a sequence is represented without loss.",
  "every non-negative int, vector, bit and sequence", "unbounded domain",
  [f"{ABC}:AbstractBitVectorMeta.__call__"])

SM='hwtypes/smt_bit_vector.py'
p("Symbolic operations denote the concrete ones",
  "For every assignment of the symbolic variables, evaluating the term built by an SMTBitVector operation (not, and, or, xor, nand, nor, xnor, shl, lshr, ashr, neg, add, sub, mul, udiv, urem, comp, eq, ne, ult, ule, ugt, uge, slt, sle, sgt, sge) equals applying the BitVector operation of the same name to the evaluated operands.",
  "every width, every pair of symbolic terms, every assignment",
  "Symbolic terms and assignments are unbounded; the repo tests only the result type.",
  [f"{SM}:SMTBitVector", f"{BV}:BitVector"])
p("Symbolic and concrete signed division agree",
  "bvsdiv and bvsrem (// and % on signed vectors) give the same value on BitVector and on SMTBitVector for all operands.",
  "every width >= 1, every pair of operands",
  "Tests never evaluate symbolic signed division.",
  [f"{SM}:SMTBitVector.bvsdiv", f"{SM}:SMTBitVector.bvsrem", f"{BV}:BitVector.bvsdiv", f"{BV}:BitVector.bvsrem"])
p("Symbolic structure operations denote the concrete ones",
  "Indexing, slicing (step 1, non-empty and in range), concatenation, zero/sign extension (by k >= 1), add-with-carry, item assignment and construction from int/Bit/vector/sequence of exactly n bits on SMTBitVector evaluate, for every assignment, to the corresponding BitVector operation on the evaluated operands.",
  "every width, term, assignment, index, slice", "unbounded",
  [f"{SM}:SMTBitVector.__getitem__", f"{SM}:SMTBitVector.concat", f"{SM}:SMTBitVector.zext", f"{SM}:SMTBitVector.sext", f"{SM}:SMTBitVector.adc", f"{SM}:SMTBitVector.__setitem__", f"{SM}:SMTBitVector.__init__"])
p("Symbolic repeat",
  "SMTBitVector.repeat(r) evaluates to BitVector.repeat(r) for every r >= 1.",
  "every width, term and r", "no unit test exists",
  [f"{SM}:SMTBitVector.repeat"])
p("Symbolic ite",
  "SMTBit.ite evaluates, for every assignment, to the branch selected by the evaluated condition, component-wise through tuples, and raises exactly when the concrete Bit.ite raises on branches of the same types.",
  "every assignment and every pair of nested branches", "unbounded nesting",
  [f"{SM}:SMTBit.ite", f"{UT}:build_ite"])
p("Substitution is semantic substitution",
  "e.substitute((x, t), ...) evaluates under an assignment to the value of e under the assignment in which each x is replaced by the value of t (simultaneously, for variables x).",
  "every term, substitution and assignment", "all terms",
  [f"{SM}:SMTBitVector.substitute", f"{SM}:SMTBit.substitute"])
p("Automatically named symbols are fresh",
  "In every history of creations (anonymous, prefixed or named) and deletions of symbolic values, an automatically named symbol gets a name not used by any live symbol and never given automatically before; explicitly reusing the name of a live symbol raises ValueError; naming a non-symbolic value raises TypeError.",
  "every history of creations and deletions with arbitrary names and prefixes",
  "History-quantified; name collisions need specific user-chosen names.",
  [f"{SM}:_gen_name", f"{SM}:SMTBit.__init__", f"{SM}:SMTBitVector.__init__"])
p("Symbolic integer views of vectors",
  "x.as_uint() / x.as_sint() of a symbolic vector evaluate to the unsigned / two's-complement value of the evaluated vector.",
  "every width >= 1, term and assignment", "all assignments",
  [f"{SM}:SMTBitVector.as_uint", f"{SM}:SMTBitVector.as_sint"])
p("Symbolic integers behave as Python ints",
  "SMTInt operations (+, -, *, //, unary -, comparisons, also with ints on the left) evaluate to Python's integer operations on the evaluated operands.",
  "every pair of terms and assignment (non-zero divisors)", "all ints, also negative divisors",
  ["hwtypes/smt_int.py:SMTInt"])
p("Formula constructors have Boolean semantics",
  "And/Or accept any iterable of formulas and bits, Implies any two, and anything else raises ValueError; to_hwtypes() of an arbitrarily nested And/Or/Implies formula evaluates to the Boolean meaning of the formula (empty And is true, empty Or is false).",
  "every nested formula and assignment", "unbounded nesting and arity",
  ["hwtypes/smt_utils.py:And", "hwtypes/smt_utils.py:Or", "hwtypes/smt_utils.py:Implies"])

FP='hwtypes/fp_vector.py'
p("IEEE bit-pattern round trip",
  "For every IEEE-compliant format, reinterpret_from_bv followed by reinterpret_as_bv is the identity on every bit pattern that is not a NaN, and maps every NaN pattern to a NaN pattern; conversely every representable value survives reinterpret_as_bv then reinterpret_from_bv.",
  "every exponent size, mantissa size and bit pattern (representable values: at least two exponent bits)",
  "2**size patterns for each of infinitely many formats.",
  [f"{FP}:FPVector.reinterpret_as_bv", f"{FP}:FPVector.reinterpret_from_bv"])
p("Bit patterns denote IEEE values",
  "reinterpret_from_bv yields (-1)**s * 1.m * 2**(e-bias) for normal, (-1)**s * 0.m * 2**(1-bias) for subnormal patterns, signed zeros, signed infinities and NaN, with bias 2**(eb-1)-1.",
  "every format and bit pattern", "as above",
  [f"{FP}:FPVector.reinterpret_from_bv"])
p("Non-IEEE formats flush",
  "In a non-IEEE format, subnormal patterns decode to a zero of the same sign, NaN patterns decode to an infinity, all other patterns round-trip.",
  "every format and bit pattern", "as above",
  [f"{FP}:FPVector.reinterpret_from_bv", f"{FP}:FPVector.reinterpret_as_bv", f"{FP}:FPVector.__init__"])
p("Classification predicates partition",
  "Exactly one of fp_is_normal, fp_is_subnormal, fp_is_zero, fp_is_infinite, fp_is_NaN holds for every representable value, and it is the one the IEEE bit pattern dictates.",
  "every format with at least two exponent bits and every representable value", "all values",
  [f"{FP}:FPVector.fp_is_normal", f"{FP}:FPVector.fp_is_subnormal"])
p("Exponent range of the arithmetic context",
  "The working context's exponent range makes exactly the format's values representable: the largest finite value is (2 - 2**-mb) * 2**bias and the smallest positive one is 2**(1-bias-mb) for IEEE formats and 2**(1-bias) otherwise.",
  "every exponent size of at least 2 and every mantissa size", "all formats",
  [f"{FP}:FPVector.__init_subclass__"])
p("Rounding modes round as named",
  "Each RoundingMode rounds the exact result as its name says: RNE nearest/ties-to-even, RNA nearest/ties-away, RTP up, RTN down, RTZ toward zero.",
  "every mode, format with at least two exponent bits, and exact value", "ties and non-ties over all values",
  [f"{FP}:_mode_2_gmpy2", "hwtypes/fp_vector_abc.py:RoundingMode"])

AD='hwtypes/adt.py'
AM='hwtypes/adt_meta.py'
p("Product/tuple values stay well-typed",
  "A Tuple/Product value can be constructed exactly from the right number of values of the field types (ValueError / TypeError otherwise), and in every history of item and attribute assignments each field always holds a value of its declared type; a rejected assignment changes nothing.",
  "every field list, argument list and history of assignments",
  "Histories and arities are unbounded.",
  [f"{AD}:Tuple.__init__", f"{AD}:Tuple.__setitem__", f"{AM}:AnonymousProductMeta._namespace_from_idx"])
p("Product/tuple read-after-write",
  "After assigning field i, reading field i (by index or by name) gives the assigned value and every other field is unchanged; attribute k and index of k are the same field. A slice that is assigned a tuple with as many fields as it has positions reads back as those fields, and other positions are unchanged.",
  "every value, field and history", "unbounded arity and histories",
  [f"{AD}:Tuple.__getitem__", f"{AD}:Tuple.__setitem__", f"{AM}:AnonymousProductMeta._namespace_from_idx"])
p("Product/tuple equality is field-wise",
  "Two values of one Tuple/Product type are equal iff all their fields are equal, in every reachable state (also after assignments), and equal values have equal hashes.",
  "every pair of values reachable by any history of assignments",
  "Needs histories: freshly constructed values behave differently from assigned-to ones.",
  [f"{AD}:Tuple.__eq__", f"{AD}:Tuple.__setitem__", f"{AD}:Tuple.__hash__"])
p("value_dict / from_values round trip",
  "T.from_values(v.value_dict) reconstructs a value equal to v, for every Tuple, Product, Sum and TaggedUnion value, and from_values rejects dictionaries with wrong keys, ill-typed values, or (Sum/TaggedUnion) other than exactly one non-None entry.",
  "every ADT type and value, every dictionary", "all types and values",
  [f"{AD}:Tuple.from_values", f"{AD}:Sum.from_values", f"{AD}:Tuple.value_dict", f"{AD}:Sum.value_dict", f"{AD}:TaggedUnion.value_dict"])
p("Sum holds exactly one alternative",
  "A Sum value's stored value always belongs to one of the declared types; s[T].match is true iff the stored value is an instance of T and then s[T].value returns it, otherwise .value raises TypeError; indexing with an undeclared type raises TypeError.",
  "every Sum type, value and history of assignments", "histories",
  [f"{AD}:Sum"])
p("TaggedUnion has exactly one active tag",
  "In every reachable state of a TaggedUnion value exactly one field matches, it is the field last assigned and its value is the last value assigned; reading any other field's value raises TypeError.",
  "every TaggedUnion type, value and history", "histories",
  [f"{AD}:TaggedUnion", f"{AM}:TaggedUnionMeta._from_fields"])
p("ADT equality is an equivalence compatible with hashing",
  "== on ADT values is reflexive, symmetric and transitive across Tuple/Product/Sum/TaggedUnion types, != is its negation, and equal values hash equally.",
  "every triple of ADT values", "all triples across types",
  [f"{AD}:Tuple.__eq__", f"{AD}:Sum.__eq__", f"{AD}:TaggedUnion.__eq__", f"{AD}:TaggedUnion.__hash__"])
p("Enumeration is complete and well-typed",
  "T.enumerate() for an ADT built from enums yields exactly the values of T, each of type T, and each once when the enums' members are distinct and alternatives are disjoint; the count is the product (tuples) or the sum (sums) of the field counts.",
  "every ADT type of every depth", "types are unbounded trees",
  [f"{AM}:TupleMeta.enumerate", f"{AM}:SumMeta.enumerate", f"{AM}:TaggedUnionMeta.enumerate", f"{AM}:EnumMeta.enumerate"])
p("Enum members",
  "Members of one Enum are equal iff their values are equal, members of different Enums are never equal, auto members are equal only to themselves, and a member cannot be reached through another member.",
  "every enum class and pair of members", "all enums",
  [f"{AD}:Enum", f"{AM}:EnumMeta"])
p("ADT classes are interned by content",
  "In every history, Tuple[...] is determined by the ordered fields, Sum[...] by the set of fields, Product (cached) by name and ordered named fields, TaggedUnion (cached) by name and the set of named fields: the same key returns the same class, different keys different classes; cache=False always creates a new class.",
  "every history of type constructions", "history-quantified identity",
  [f"{AM}:_GetitemSyntax._cache_handler", f"{AM}:_AttrSyntax._cache_handler", f"{AM}:_GetitemSyntax._get_idx"])
p("rebind replaces exactly the occurrences",
  "T.rebind(A, B) yields the type obtained by replacing every occurrence of A (and, if asked, of its subtypes) in the field tree by B and nothing else; if A does not occur the result is T itself; rebinding to a type that does not occur and back gives T.",
  "every ADT type tree and every A, B", "trees of unbounded depth",
  [f"{AM}:_GetitemSyntax.rebind", f"{AM}:_AttrSyntax.rebind", f"{AM}:EnumMeta.rebind"])
AU='hwtypes/adt_util.py'
p("rebind_bitvector is a simultaneous replacement",
  "rebind_bitvector(T, B0, B1) replaces every B0-derived vector leaf by B1 of the same size throughout the tree and leaves everything else alone, independently of field order and even when one field type occurs inside another or equals another field's image.",
  "every ADT type tree and vector class pair", "The code substitutes field by field; order effects showed up non-deterministically (test_sum_issue loops 1000 times).",
  [f"{AU}:rebind_bitvector"])
p("Modifiers are interned, recoverable and hierarchy-preserving",
  "In every history, M(T) is M(T); M(T) is M'(T') only if M is M' and T is T'; get_modifier and get_unmodified recover M and T; M(T) is a subclass of T, of M, and of M(B) for every superclass B of T; types not produced by a modifier are not modified.",
  "every history of modifier creation/application over arbitrary class hierarchies", "history- and hierarchy-quantified",
  ["hwtypes/modifiers.py:_ModifierMeta.__call__", "hwtypes/modifiers.py:get_modifier", "hwtypes/modifiers.py:get_unmodified"])
p("wrap/unwrap are inverse",
  "unwrap_modifier(wrap_modifier(T, mods)) == (T, mods) for unmodified T and duplicate-free mods, wrap_modifier(*unwrap_modifier(T)) is T for every T, and duplicate modifiers are rejected.",
  "every type and modifier list", "unbounded stacks",
  ["hwtypes/modifiers.py:wrap_modifier", "hwtypes/modifiers.py:unwrap_modifier"])
p("strip_modifiers removes all modifiers and nothing else",
  "strip_modifiers(T) contains no modifier at any depth, is idempotent, and has the same tree shape, names and leaves as T.",
  "every ADT type tree", "unbounded depth",
  ["hwtypes/modifiers.py:strip_modifiers"])
p("push_modifiers moves modifiers to the leaves",
  "push_modifiers(T) has no modifier on an internal node, every leaf carries exactly the modifiers found on the path from the root to it (innermost first), and stripping it equals stripping T.",
  "every ADT type tree", "unbounded depth",
  ["hwtypes/modifiers.py:push_modifiers"])
p("Visitors reach every leaf once in order",
  "ADTVisitor.visit(T) calls the leaf handler exactly once per leaf of T, left to right, and dispatches each node to the handler of its own kind; ADTInstVisitor visits exactly the present components of a value.",
  "every ADT type tree / value", "unbounded trees",
  [f"{AU}:ADTVisitor", f"{AU}:ADTInstVisitor", f"{AU}:_ADTVisitor.visit"])
p("Frozen dictionaries",
  "FrozenDict equality is key/value equality and equal FrozenDicts hash equally; OrderedFrozenDict equality and hash additionally depend on order; mixing the two kinds (or plain dicts) keeps the contract 'equal objects have equal hashes'.",
  "every pair of dictionaries", "all pairs",
  ["hwtypes/util.py:FrozenDict", "hwtypes/util.py:OrderedFrozenDict"])
p("Reserved names cannot become fields",
  "No Product, TaggedUnion or Enum can be created, by class syntax or from_fields, with a field whose name the type machinery reserves: ReservedNameError is raised.",
  "every field dictionary", "all names and dictionaries",
  [f"{AM}:_AttrSyntax.__new__", f"{AM}:_AttrSyntax.from_fields"])
p("Equality does not depend on operand order",
  "For any two of: vectors of any classes and widths, Bits, ints, bools and arbitrary objects (at least one of them a vector or a Bit), a == b and b == a have the same outcome (value or exception), and likewise !=.",
  "every ordered pair of operands", "all pairs of values and classes, including reflected dispatch",
  ["hwtypes/bit_vector.py:BitVector.__eq__", "hwtypes/bit_vector.py:Bit.__eq__", "hwtypes/bit_vector.py:bit_cast"])
p("Operations leave their operands alone and return new objects",
  "No operation other than item assignment changes any existing vector, and the vector an operation returns is a new object: a later item assignment to one vector never changes another one.",
  "every client program over registers holding vectors, Bits and ints", "unbounded programs; aliasing only shows after later assignments",
  ["hwtypes/bit_vector.py:BitVector.__setitem__", "hwtypes/bit_vector.py:BitVector.bvurem", "hwtypes/bit_vector.py:BitVector.bvsrem"])
p("Only ints are accepted as vector sizes",
  "T[x] with an x that is not an int (for example 8.0) raises TypeError, whatever classes have been created before.",
  "every history of class creation/binding operations and every non-int index", "the outcome depends on the history of the class cache",
  ["hwtypes/bit_vector_abc.py:AbstractBitVectorMeta.__getitem__"])
SM='hwtypes/smt_bit_vector.py'
p("Symbolic and concrete vectors accept the same arguments",
  "A vector operation or constructor of the common interface that returns a value on BitVector operands also returns a value on SMTBitVector operands of the same widths (and vice versa), so code written for one family runs on the other.",
  "every operation, width and argument", "the two implementations check arguments independently; the repo tests exercise each family separately",
  [f"{SM}:SMTBitVector.__init__", f"{SM}:SMTBitVector.__getitem__", f"{SM}:SMTBitVector.sext", f"{SM}:SMTBitVector.repeat", f"{SM}:SMTBitVector.bvrol", f"{SM}:SMTBitVector.as_sint"])
p("Symbolic rotation denotes concrete rotation",
  "x.bvrol(k) and x.bvror(k) on SMTBitVector evaluate, for every assignment, to BitVector's rotation of the evaluated operands, for int and for vector amounts.",
  "every width, term, amount and assignment", "all amounts and assignments",
  [f"{SM}:SMTBitVector.bvrol", f"{SM}:SMTBitVector.bvror"])
p("Symbolic bit operators denote Bit's",
  "The SMTBit operators ==, !=, &, |, ^, ~ between symbolic bits and with bools, 0/1 ints and other objects on either side evaluate, for every assignment, to the Bit operators on the evaluated operands, and raise exactly when those raise.",
  "every operator, operand pair, operand order and assignment", "all terms and assignments, reflected dispatch",
  [f"{SM}:SMTBit", f"{SM}:bit_cast"])
p("Symbolic operator expressions denote the concrete operator expressions",
  "Every binary arithmetic, bitwise, shift and comparison operator between a symbolic vector and an int, Bit, sequence or symbolic vector, in either order and for each of the four predefined classes, evaluates for every assignment to the concrete operator expression on the evaluated operands (value, class and exception), signed // and % excepted.",
  "every operator, class pair, operand order and assignment", "all terms and assignments, reflected dispatch and class priority",
  [f"{SM}:dispatch_oper", f"{SM}:dispatch_roper", f"{SM}:SMTBitVector", f"{SM}:SMTSIntVector"])
p("A new automatic symbol is a new variable",
  "The variable behind a newly created anonymous or prefixed symbolic value occurs in no term that already exists, so constraints on old values never constrain the new one.",
  "every history of creations (anonymous, prefixed, named) and deletions", "needs a name that outlives its object inside terms; history-quantified",
  [f"{SM}:_gen_name", f"{SM}:SMTBitVector.__init__"])
p("Floating-point + - * / are correctly rounded",
  "For finite operands of one format FPVector's +, -, *, / return the exact result rounded once in the format's rounding mode (as the mode's IEEE 754 name says); for infinite, NaN and zero operands they return what IEEE 754's table of special values says (an infinity in place of NaN in a non-IEEE format); they never raise.",
  "every format with at least 2 exponent bits, every pair of objects, every operation", "all formats and operand pairs; the repo tests sample",
  [f"{FP}:FPVector.fp_add", f"{FP}:FPVector.fp_sub", f"{FP}:FPVector.fp_mul", f"{FP}:FPVector.fp_div", f"{FP}:set_context"])
p("Fused multiply-add rounds once",
  "x.fp_fma(y, z) is the exact x*y+z rounded once, equal to constructing the object from the exact number; special operands follow IEEE 754.",
  "every format with at least 2 exponent bits and every three objects", "all formats and operand triples; double rounding shows on rare operands only",
  [f"{FP}:FPVector.fp_fma"])
p("Floating-point identities",
  "x+y and y+x, x*y and y*x are the same value; x-y is x+(-y); x*1 and x/1 are x; x+0 is x except that -0 becomes +0 outside RTN; x-x is +0 (-0 in RTN) for finite x.",
  "every format with at least 2 exponent bits and all objects", "all formats and operands",
  [f"{FP}:FPVector.fp_add", f"{FP}:FPVector.fp_sub", f"{FP}:FPVector.fp_mul", f"{FP}:FPVector.fp_div", f"{FP}:FPVector.fp_neg"])
p("Rounding is monotone",
  "If x <= x' then FPVector(x) <= FPVector(x'), and if the exact result of one operation is not above that of another, so are the returned values, in every rounding mode.",
  "every format with at least 2 exponent bits, all numbers and operands", "needs all pairs of numbers",
  [f"{FP}:FPVector.__init__", f"{FP}:set_context"])
p("Floating-point comparisons order the extended number line",
  "<, <=, >, >=, ==, != between FPVectors of one format compare the numbers they denote (with the infinities; +0 equals -0); with a NaN all are False but !=; otherwise exactly one of <, ==, > holds, <= is not >, >= is not <.",
  "every format and every pair of objects", "all pairs of values",
  [f"{FP}:FPVector.fp_lt", f"{FP}:FPVector.fp_leq", f"{FP}:FPVector.fp_eq", f"{FP}:FPVector.__ne__"])
p("Floating-point sign operations act on the sign bit",
  "fp_neg inverts the sign bit of the encoding and nothing else; fp_abs clears it; fp_is_negative and fp_is_positive report it for every value that is not a NaN.",
  "every format and object", "all objects, including zeros and NaNs",
  [f"{FP}:FPVector.fp_neg", f"{FP}:FPVector.fp_abs", f"{FP}:FPVector.fp_is_negative", f"{FP}:FPVector.fp_is_positive"])
p("Conversion of floats to vectors truncates",
  "to_ubv(n) and to_sbv(n) of a finite value give its integer part (toward zero, in every rounding mode) modulo 2^n as BitVector[n] and SIntVector[n]; infinities and NaNs raise; an integer the format and the width can hold comes back.",
  "every object, width and integer", "unbounded domain",
  [f"{FP}:FPVector.to_ubv", f"{FP}:FPVector.to_sbv"])
p("Floating-point operands are never converted silently between formats",
  "An FPVector operand of another size, mode or compliance makes every operation and comparison raise TypeError; any other operand is first converted by the left operand's constructor, and what that raises is raised; the constructor itself rounds an object of another format and leaves one of its own unchanged.",
  "every pair of formats, every operation, every operand", "all pairs of formats",
  [f"{FP}:fp_cast", f"{FP}:FPVector.__init__"])
p("Floating-point minimum and maximum",
  "fp_min and fp_max of two numbers return the two operands, in order; a NaN gives way to a number; fp_min(+0,-0) is -0 and fp_max(+0,-0) is +0 in either order.",
  "every format with at least 2 exponent bits and every pair of objects", "all pairs, special values",
  [f"{FP}:FPVector.fp_min", f"{FP}:FPVector.fp_max"])
p("Floating-point remainder is exact",
  "x % y (fp_rem) is x - n*y for the integer n nearest to x/y, the even one if two are; in an IEEE format this is a number of the format and no rounding takes place, whatever the mode; a zero remainder has the sign of x; x % inf is x; inf % y and x % 0 are NaN.",
  "every format with at least 2 exponent bits and every pair of objects", "quotients of any size; exactness is a theorem about all pairs",
  [f"{FP}:FPVector.fp_rem", f"{FP}:FPVector.__mod__"])
p("Rounding to an integral value",
  "fp_round_to_integral returns the integer the format's rounding mode selects, as a value of the format (exactly, unless it is beyond the range); zeros keep their sign.",
  "every format with at least 2 exponent bits and every finite object", "all formats, modes and values",
  [f"{FP}:FPVector.fp_round_to_integral"])
p("rebind_keep_modifiers replaces under modifiers",
  "rebind_keep_modifiers(T, A, B) replaces every class deriving from A in the field tree of T by B, leaving the modifiers around it, and changes nothing else.",
  "every ADT type of every depth, every A and B", "all type trees; the bug needs a field type that occurs inside a sibling",
  [f"{AU}:rebind_keep_modifiers"])
p("rebind_type moves a type to a family",
  "rebind_type(T, family) replaces every vector class in T by the family's BitVector of the same size and every Bit by the family's Bit, keeps modifiers, and returns types it cannot rebind unchanged.",
  "every type of every depth and every family", "all type trees; modified types are not tested",
  [f"{AU}:rebind_type"])
p("Bound ADT classes sit where their fields say",
  "A Product with fields a: A, b: B is a subclass of AnonymousProduct[{a: A, b: B}], which is a subclass of Tuple[A, B]; a TaggedUnion with these fields is a subclass of Sum[A, B]; S[...] is a subclass of T[...] for unbound S below T of the same kind; a subclass of a bound class has the same fields; a class derived without fields of its own is made exactly if its bound bases agree, and its unbound_t is itself if it is unbound, else its only unbound base; an Enum class with members is made exactly if it has one enum base and its bound bases agree.",
  "every class in every history of class statements, [...], from_fields, modifiers and collections", "history- and hierarchy-quantified; base classes are made recursively and taken from a weak cache",
  [f"{AM}:_GetitemSyntax._cache_handler", f"{AM}:ProductMeta._from_fields", f"{AM}:TaggedUnionMeta._from_fields", f"{AM}:BoundMeta._info_from_bases"])
p("Product constructors take every field name",
  "A Product can be declared with any distinct identifiers as field names that are not reserved, and P(v1, ..., k=vk, ...) with the trailing values by keyword in any order builds the value with the fields in declaration order.",
  "every list of field names and every split of the values into positional and keyword arguments", "the constructor is generated as source text from the names; tests use a handful of names",
  [f"{AM}:AnonymousProductMeta._from_idx"])
Z3='hwtypes/z3_bit_vector.py'
p("z3 methods compute what the concrete methods compute",
  "For every assignment of the z3 constants, each bitvector method of z3BitVector except bvsdiv (logic, shifts, rotations, arithmetic, unsigned division, remainders, all comparisons) applied to values denoting concrete operands returns a value denoting what the concrete method of the same name returns, or both raise.",
  "every class, width >= 1, every pair of z3 expressions, every assignment", "quantifies over all expressions and assignments; the z3 tests compare a few constants",
  [f"{Z3}:z3BitVector.bvand", f"{Z3}:z3BitVector.bvadd", f"{Z3}:z3BitVector.bvsrem", f"{Z3}:z3BitVector.bvrol", f"{Z3}:z3BitVector.bvslt", f"{Z3}:z3BitVector.__init__"])
p("z3 signed division fits its remainder",
  "z3SIntVector // agrees with SIntVector //, and (x // y) * y + x % y is x for every nonzero y.",
  "every width, all operands, all assignments", "needs all pairs of signed operands; the mismatch shows only when signs differ and the division is inexact",
  [f"{Z3}:z3BitVector.bvsdiv", f"{Z3}:z3BitVector.bvsrem", f"{Z3}:z3SIntVector.__floordiv__", f"{Z3}:z3SIntVector.__mod__"])
p("z3 structural operations agree with the concrete ones",
  "Construction, indexing, slicing, item assignment, concat, zext, sext, repeat and adc of z3BitVector denote, under every assignment, the results of the concrete family, including the exceptions.",
  "every class, width, index, slice, amount, operand and assignment", "unbounded parameters times all assignments",
  [f"{Z3}:z3BitVector.__init__", f"{Z3}:z3BitVector.__getitem__", f"{Z3}:z3BitVector.__setitem__", f"{Z3}:z3BitVector.concat", f"{Z3}:z3BitVector.repeat", f"{Z3}:z3BitVector.sext", f"{Z3}:z3BitVector.adc"])
p("z3 operators agree with the concrete operators",
  "For every assignment, x op y for z3 vectors and bits, plain ints, bools and sequences of bits on either side denotes what the concrete operators give for the denoted operands, including which class the result has and which calls raise.",
  "every operator, every pair of operands and classes, every assignment", "operands times classes times assignments; operator dispatch also depends on the order of the operands",
  [f"{Z3}:z3BitVector.__add__", f"{Z3}:z3BitVector.__rshift__", f"{Z3}:z3BitVector.__eq__", f"{Z3}:z3SIntVector.__lt__", f"{Z3}:z3Bit.__and__"])
p("z3 ite selects a branch",
  "c.ite(t, f) denotes t when c denotes true and f otherwise, as an object of the kind the concrete ite returns.",
  "every condition, every pair of branches, every assignment", "all pairs of branch types and all assignments",
  [f"{Z3}:z3Bit.ite", f"{Z3}:z3BitVector.ite"])
p("Live symbolic z3 values are independent",
  "In every history of constructor calls and deaths of objects, no two live symbolic z3 values have the same name, so any values can be assigned to them at once; automatic names are never repeated and never that of a live value; the name of a live value is refused, any other granted.",
  "every history of constructor calls and object deaths", "history-quantified and dependent on garbage collection; the tables are global",
  [f"{Z3}:_gen_name", f"{Z3}:_name_table", f"{Z3}:z3Bit.__init__", f"{Z3}:z3BitVector.__init__"])
p("A new symbolic z3 value is a new constant",
  "A symbolic z3 value made without a name is a constant that no expression made earlier mentions.",
  "every history", "needs an earlier object to have been collected",
  [f"{Z3}:_gen_name", f"{Z3}:z3BitVector.__init__"])
SF='hwtypes/smt_fp_vector.py'
p("Symbolic floating-point methods can be read as the concrete ones",
  "There is one interpretation of all function symbols of all classes SMTFPVector[eb, mb, mode, ieee] under which every method call that returns denotes what the FPVector method of the same name returns for the denoted operands (NaN signs apart), and to_ubv(n) what FPVector.to_ubv(n) returns.",
  "every format with at least 2 exponent bits, every method, all operands, any assignment of the variables", "a statement about the existence of an interpretation for all formats and values at once; no solver run can show it",
  [f"{SF}:SMTFPVector.__init_subclass__", f"{SF}:SMTFPVector._fp_method", f"{SF}:SMTFPVector._bit_method", f"{SF}:SMTFPVector.to_ubv"])
p("What a solver proves about symbolic floats holds of concrete floats",
  "If a formula built from SMTFPVector methods, comparisons and ~ & | over named variables is valid, the same formula evaluates to true in FPVector for all values of the variables.",
  "every formula, every format with at least 2 exponent bits, all values", "quantifies over formulas and all concrete values",
  [f"{SF}:SMTFPVector.fp_add", f"{SF}:SMTFPVector.fp_lt", f"{SF}:SMTFPVector.__init__"])
p("Every symbolic floating-point method can be called",
  "Each method of SMTFPVector applied to operands of its class returns a vector of the class or a bit; to_ubv and to_sbv return vectors of the size asked for.",
  "every class, every method, all operands", "the symbols are declared from a table far from the calls; methods without a test are never called",
  [f"{SF}:_SIGS", f"{SF}:SMTFPVector.fp_min", f"{SF}:SMTFPVector.fp_max", f"{SF}:SMTFPVector.to_sbv", f"{SF}:SMTFPVector.to_ubv"])
p("Symbolic floating-point operators are related as the concrete ones",
  "x != y is the negation of x == y; equal operands give equal results; and the relations between the concrete operators hold in every interpretation: x < y iff y > x, x < y implies x <= y, x == y iff y == x, x + y is y + x.",
  "every class, all operands, every interpretation", "quantifies over all interpretations of the function symbols",
  [f"{SF}:SMTFPVector._bit_method", f"{SF}:SMTFPVector.__ne__", f"{SF}:SMTFPVector.fp_lt", f"{SF}:SMTFPVector.fp_gt"])
p("Symbolic floating-point operands of another type are refused",
  "A method of SMTFPVector raises TypeError for a vector of another format, as FPVector does, and for other objects.",
  "every pair of formats, every binary method", "all pairs of formats; the interesting ones have the same width",
  [f"{SF}:SMTFPVector._fp_method", f"{SF}:SMTFPVector._bit_method", f"{FP}:_coerce"])
p("Symbolic floating-point vectors made from integers",
  "SMTFPVector[..](n) is the vector with bit pattern n, n out of range raises ValueError; it stands for the value FPVector[..](n).",
  "every class and integer", "all integers and formats",
  [f"{SF}:SMTFPVector.__init__", f"{FP}:FPVector.__init__"])
p("Symbolic floating-point classes can be declared in any order",
  "Any sequence of class statements below bound SMTFPVector classes and of SMTFPVector[...] succeeds, unless two classes of one name have different widths; the classes SMTFPVector[...] never conflict; an unbound subclass cannot be declared.",
  "every sequence of class statements", "history-quantified: the symbol table of pysmt is global and symbols are named by class name",
  [f"{SF}:SMTFPVector.__init_subclass__", "hwtypes/fp_vector_abc.py:AbstractFPVectorMeta.__getitem__"])
p("Symbolic floats and bit vectors convert without loss",
  "reinterpret_as_bv and reinterpret_from_bv of SMTFPVector are inverse to each other on all patterns, NaN payloads included; a vector of another width raises TypeError.",
  "every class and every term", "all terms and widths",
  [f"{SF}:SMTFPVector.reinterpret_as_bv", f"{SF}:SMTFPVector.reinterpret_from_bv"])
p("Square roots are correctly rounded",
  "fp_sqrt of a positive number is the real square root rounded once in the format's rounding mode; it is exact on squares, never overflows, and is monotone; sqrt(-0) is -0, sqrt(+inf) is +inf, negative numbers and NaN give NaN (an infinity in formats without NaN).",
  "every format with at least 2 exponent bits, every rounding mode, every value", "all values of all formats against an irrational exact result",
  [f"{FP}:FPVector.fp_sqrt"])
p("Live symbolic floats are independent variables",
  "An SMTFPVector made without a name is a variable that no value made before mentions; an explicit name that a live symbolic float already has raises ValueError; all live symbolic values (floats, vectors, bits) are different variables.",
  "every history of constructor calls of both modules and deaths", "history-quantified over two weak tables, pysmt's permanent symbol table and its counter",
  [f"{SF}:SMTFPVector.__init__", f"{SF}:_name_table"])
p("Floating-point classes are interned",
  "T[eb, mb, mode, ieee] succeeds on every unbound class for positive sizes, has that binding and T as unbound_t, and while the class is alive every further T[...] with that index returns the same object; different indices or classes give different classes. Binding a bound class raises TypeError, sizes that are not positive ValueError, indices of other types IndexError.",
  "every history of class statements, bindings and collections", "identity over arbitrary histories with a weak cache and garbage collection",
  ["hwtypes/fp_vector_abc.py:AbstractFPVectorMeta.__getitem__", "hwtypes/fp_vector_abc.py:AbstractFPVectorMeta.unbound_t"])
p("Floating-point formats follow the class hierarchy and never mix",
  "If S derives from T then S[i] derives from T[i], from S and from T; a class deriving from a bound class has its binding, so no floating-point type is a subtype of one of another format, rounding mode or compliance; a class statement with bases of two bindings raises TypeError.",
  "every history of class statements, bindings and collections", "quantifies over all class hierarchies",
  ["hwtypes/fp_vector_abc.py:AbstractFPVectorMeta.__new__", "hwtypes/fp_vector_abc.py:AbstractFPVectorMeta.__getitem__"])
p("Random floats are normal numbers",
  "FPVector.random returns a normal number or, if allow_inf, an infinity; never NaN, zero or a subnormal; with allow_inf=False never an infinity; every normal number can be returned.",
  "every format, rounding mode and result of the random number generators", "quantifies over all draws and formats; the failing draws are rare (the largest mantissa with the largest exponent)",
  [f"{FP}:FPVector.random"])
p("Printed formulas are unambiguous",
  "FormulaConstructor.serialize determines the formula: formulas built from And, Or, Implies and bits that print alike are equal, no printed formula continues another, and every line after the first starts with the line prefix.",
  "every nesting of And, Or, Implies, every indentation and prefix without newlines", "injectivity over all nested formulas",
  ["hwtypes/smt_utils.py:_op_to_str", "hwtypes/smt_utils.py:And", "hwtypes/smt_utils.py:Or", "hwtypes/smt_utils.py:Implies"])
p("random draws every vector with equal probability",
  "T.random(w) is a vector of class T[w], and every vector of that class is the result of exactly one of the numbers randint may draw; the number drawn is the signed value for SIntVector. Negative widths raise ValueError. Bit.random draws each bit.",
  "every width and every number drawn", "uniformity is a statement about all draws at all widths",
  [f"{BV}:BitVector.random", f"{BV}:SIntVector.random", f"{BV}:Bit.random"])
p("make_constant agrees in all families",
  "make_constant(v, n) on a class or an instance is the constant v of the unsized class at width n, n defaulting to the width of the receiver; the pysmt and z3 families give a term denoting the concrete result.",
  "every value, width, class and receiver", "all widths, values and three families",
  [f"{BV}:BitVector.make_constant", f"{SM}:SMTBitVector.make_constant", f"{Z3}:z3BitVector.make_constant", f"{ABC}:AbstractBitVector.make_constant"])
p("Operators of polymorphic symbolic vectors follow the symbolic condition",
  "After r = c.ite(t, f) with a symbolic condition c and vectors t, f of different classes, r op k is one term that under every assignment has the value of t op k where c holds and of f op k where it does not, also after nesting; the same for comparisons and ext. Vectors of different widths and operands of other types raise as for plain vectors. The class of r derives from exactly the predefined classes that the classes of t and f derive from.",
  "every nesting of conditional classes, every operator, operand and assignment", "quantifies over all assignments of the symbols and all nested conditional classes",
  ["hwtypes/bit_vector_util.py:VCall", "hwtypes/bit_vector_util.py:PolyType", "hwtypes/bit_vector_util.py:build_ite", f"{SM}:SMTBit.ite", f"{SM}:SMTBitVector.ext", f"{SM}:SMTSIntVector.ext"])
p("Modifiers made by name are interned",
  "make_modifier(name, cache=True) returns the same modifier for the same name while the program holds it or any type it made, so make_modifier(name, cache=True)(T) is one type; without cache every call returns a modifier no other call returns; modifiers of different names, or made without cache, never make the same type.",
  "every history of make_modifier, modifier applications, class statements and collections", "identity over all histories, with a weak table and modifiers kept alive only by the types they made",
  ["hwtypes/modifiers.py:make_modifier", "hwtypes/modifiers.py:AbstractModifier._register_modified"])
p("new returns a new type every time",
  "new(T) derives from T; new(T, bind) is bound as T[bind] is, derives from T[bind], and its unbound class is new and derives from T; two calls, at any times, never return the same type, nor one that existed before.",
  "every history of class statements, bindings and collections, every class and binding", "freshness and subtyping over all histories with caches",
  ["hwtypes/modifiers.py:new"])
p("Typed properties behave as properties with a type check",
  "A class body that uses TypedProperty(T) and its getter, setter and deleter declares what it would with property; no decorator changes a property declared before; reading the attribute of the class gives T; assigning to an instance calls the last setter only for instances of T, otherwise raises TypeError; a missing getter, setter or deleter raises AttributeError.",
  "every class body, in any order of decorators and across names", "quantifies over all sequences of decorators with mutable property objects",
  ["hwtypes/util.py:TypedProperty"])
p("Constructing a float from a number rounds it once",
  "FPVector[eb, mb, mode, ieee](x) is the value of x rounded once in the class's rounding mode, whether x is an int, float, mpz or mpq, a decimal string, a string 'p/q', a bit vector, or any other object with __float__ (Fraction, Decimal, numpy integers); x beyond the range overflows as the mode says.",
  "every rational value, every way to write it, every format and mode", "double rounding shows only for values within 2^-53 of a midpoint or a bound",
  [f"{FP}:FPVector.__init__"])
p("float of a floating-point vector round-trips",
  "float(x) of a vector whose format fits in binary64 (eb <= 11, mb <= 52) is its exact value, infinities and signed zeros included, and T(float(x)) is x bit for bit; from larger formats float(x) is the value rounded once in the mode of the class.",
  "every format, mode and value", "all formats and all bit patterns, including subnormals",
  [f"{FP}:FPVector.__float__", f"{FP}:FPVector.__init__"])
p("Floating-point methods do not depend on gmpy2's context",
  "Every method of FPVector gives the same answer or exception whatever gmpy2 context the program has made current (precision, exponent range, rounding mode, flags), and leaves that context and its flags as they were, also when it raises; so does a whole program mixing such calls with context changes.",
  "every method, argument and ambient context; every sequence of calls and context changes", "tests run in the default context; a missing decorator shows only in another one",
  [f"{FP}:set_context", f"{FP}:FPVector"])
p("Printed ADT values tell values apart",
  "Two values of one ADT class over Bit and bit vectors have the same repr (or str) only if they hold the same values in the same fields, and then they are equal; the repr of a bit vector also determines its class and width.",
  "every class built from Tuple, Product, AnonymousProduct, Sum, TaggedUnion, Enum, modifiers, Bit and vectors; every pair of values", "a collision is between two particular values of a nested type",
  [f"{AD}:Tuple.__repr__", f"{AD}:AnonymousProduct.__repr__", f"{AD}:Sum.__repr__", f"{AD}:TaggedUnion.__repr__", f"{AD}:Enum.__repr__", f"{BV}:BitVector.__repr__", f"{BV}:BitVector.__str__"])
p("A circuit means the same under simulation and under both solvers",
  "Take code written once over the methods all families share (constants, bvnot to bvcomp, comparisons, rotations, extensions, slices, indexing, concat, adc, bit operators, ite; the operators + to >= with a vector on the left and a vector of the same class, a bit or an int on the right; no signed division) and run it with BitVector, SMTBitVector and z3BitVector. A solver proves an output bit of the symbolic run exactly when simulation gives true for all inputs; so both solvers give the same verdict, and a counterexample of the solver, fed to the simulation, gives the output the solver reported. Both symbolic runs raise exactly when the simulation raises.",
  "every straight-line function of those methods, of any length; every list of differently named inputs of positive widths; every output", "the number of functions and inputs is unbounded, and a test compares one function at a few inputs",
  [f"{ABC}:AbstractBitVector", f"{ABC}:AbstractBit", f"{BV}:BitVector", f"{SM}:SMTBitVector", f"{Z3}:z3BitVector"])
p("A circuit that assigns to bits means the same under simulation and under both solvers",
  "Code as in C123 that moreover assigns to bits (x[i] = v) and gives objects further names (y = x) means the same when run with BitVector, SMTBitVector and z3BitVector: an assignment is seen under every name of the object and under no other, and a solver proves an output exactly when the simulation gives true for all inputs.",
  "every straight-line function of the shared methods, assignments and renamings; every list of differently named inputs of positive widths; every output", "the functions, the alias structures and the inputs are unbounded",
  [f"{BV}:BitVector.__setitem__", f"{BV}:BitVector.bvurem", f"{SM}:SMTBitVector.__setitem__", f"{Z3}:z3BitVector.__setitem__"])
p("Dictionaries with vectors as keys are maps on values",
  "In any program, a dict whose keys are vectors behaves as a map from values: d[x] finds what was last stored under a vector of the same class, width and value, however either was computed, del removes exactly that, and a KeyError says that nothing is stored.",
  "every program of vector operations, item assignments and dictionary operations; every hash function of strings", "programs, values and hash seeds are unbounded; python picks another hash function on every start",
  [f"{BV}:BitVector.__hash__", f"{BV}:BitVector.__eq__", f"{BV}:BitVector.__setitem__"])
p("Truncation is announced",
  "When a vector is constructed from another vector, a bit, a sequence or a number-like object and no 'Truncating value' warning is given, it holds the number of that object; the same for operands that methods convert; and the three families warn alike.",
  "every class, width and argument", "all widths and values, and code relies on the absence of the warning",
  [f"{BV}:BitVector.__init__", f"{SM}:SMTBitVector.__init__", f"{Z3}:z3BitVector.__init__"])
p("Flushing of floating-point patterns is announced",
  "reinterpret_from_bv gives a pattern the value IEEE 754 assigns to it exactly when it gives no warning; the warning says whether a subnormal or a NaN was replaced, and IEEE-compliant formats never warn. reinterpret_as_bv never warns, neither about flushing nor about truncation, for any object of the format.",
  "every format, bit pattern and object", "all formats, patterns and objects",
  [f"{FP}:FPVector.reinterpret_from_bv", f"{FP}:FPVector.reinterpret_as_bv"])
p("Ring and bitwise code agrees with Python ints modulo 2^n",
  "A function built from + - * & | ^ ~, unary - and << by literals in [0, 2^n), with vectors of one class as arguments and int literals anywhere, returns on vectors what it returns on Python ints, reduced modulo 2^n (arguments read as signed or unsigned, no difference). So every identity of the integers holds for vectors of every width, and if the exact result is in range it is the result, whatever overflowed on the way. With >>, // or % this fails.",
  "every class, width, expression and arguments", "all expressions, all widths",
  [f"{BV}:BitVector.bvadd", f"{BV}:BitVector.bvmul", f"{BV}:BitVector.bvxor", f"{BV}:BitVector.bvshl", f"{BV}:BitVector.__init__", f"{BV}:dispatch_oper", f"{BV}:dispatch_roper"])
p("Without overflow all operators are those of Python ints",
  "A function built from all operators (& | ^ << >> + - * // %, ~, unary -, comparisons) with vectors of one class and int literals: if the run on Python ints (as_uint of the arguments, as_sint for SIntVector) returns and no intermediate value leaves the range of the class, the run on vectors returns exactly the same numbers.",
  "every class, width, expression and arguments", "all expressions, all widths",
  [f"{BV}:BitVector.bvlshr", f"{BV}:BitVector.bvudiv", f"{BV}:BitVector.bvsdiv", f"{BV}:BitVector.bvsrem", f"{BV}:SIntVector", f"{BV}:dispatch_oper", f"{BV}:dispatch_roper"])
p("Symbolic code agrees with Python ints",
  "The same functions on SMTBitVector and z3BitVector: under every assignment of the inputs the result has the value of the run on Python ints, modulo 2^n for ring and bitwise code and exactly where nothing overflows; so every identity of the integers is valid for the solver at every width.",
  "every class, width, expression, input and assignment", "all expressions, widths and assignments",
  [f"{SM}:SMTBitVector.bvadd", f"{SM}:SMTBitVector.bvmul", f"{SM}:dispatch_oper", f"{Z3}:z3BitVector.bvadd", f"{Z3}:z3BitVector.bvmul"])
p("Vectors of user-defined classes compute as the class they derive from",
  "For every class derived from BitVector, SIntVector, ... or from a sized class (by subclassing or by a modifier, overriding nothing): methods, comparisons, readings, operators and ite give the same values and exceptions as on the predefined class of the same width; arithmetic results belong to type(self) (operators: the class of the left operand), structural results to the class of the new width.",
  "every class hierarchy, class, value and argument", "all class hierarchies and all inputs",
  [f"{BV}:BitVector", f"{BV}:SIntVector", f"{BV}:_coerce", f"{ABC}:AbstractBitVectorMeta.__new__", f"{ABC}:AbstractBitVectorMeta.unsized_t", f"{UT}:PolyVector"])
p("The modifiers of a type are listed in order, once each, and rebuild it",
  "In every history: get_all_modifiers(M(T)) is get_all_modifiers(T) followed by M, never with a repetition (applying a modifier the type already carries raises); wrap_modifier(*unwrap_modifier(T)) is T and makes no class; a type is determined by unwrap_modifier(T); issubclass(T, M) and isinstance(x, M) tell whether M is among the modifiers of the type.",
  "every history of class statements, modifier applications and collections; every type alive", "history-quantified: the lists are read off the class hierarchy and weak caches",
  ["hwtypes/modifiers.py:get_all_modifiers", "hwtypes/modifiers.py:unwrap_modifier", "hwtypes/modifiers.py:wrap_modifier", "hwtypes/modifiers.py:_ModifierMeta.__instancecheck__", "hwtypes/modifiers.py:_ModifierMeta.__subclasscheck__"])
p("Records packed with concat come apart into the same fields",
  "Concatenating vectors of one class, in any number and of any widths, gives a vector whose bits are the bits of the fields, first field lowest; slicing it at the running offsets gives back exactly the fields; slicing any vector into consecutive pieces and concatenating them gives back the vector; and replacing a slice by x[0:lo].concat(y).concat(x[hi:len(x)]) changes exactly the bits lo..hi-1. Packing and unpacking do the same in the pysmt and the z3 families under every assignment, and so does the replacement when bits remain on both sides of the slice.",
  "every number of fields, every width, every value, every assignment", "the fields are a list of any length of symbolic vectors",
  [f"{BV}:BitVector.concat", f"{BV}:BitVector.__getitem__", f"{SM}:SMTBitVector.concat", f"{SM}:SMTBitVector.__getitem__", f"{Z3}:z3BitVector.concat", f"{Z3}:z3BitVector.__getitem__"])
p("Python functions with loops and handlers mean the same with every family",
  "A Python function over vectors and bits with if, for, while, raise and try, which never asks a vector or a bit for its truth value, run with the pysmt family ends exactly when it ends in simulation, with the same Python result or the same exception, and its vectors stand for the simulated ones under every assignment; the same with z3 unless a handler tells InconsistentSizeError from TypeError; a solver proves the bit the function returns iff simulation gives true for all inputs; and what such a function returns or raises depends on the classes and widths of its arguments only.",
  "every function (finite or not in its branching, with any loops), every argument, every assignment", "quantifies over all client programs and all solver assignments",
  [f"{SM}:SMTBitVector", f"{SM}:SMTBit", f"{Z3}:z3BitVector", f"{Z3}:z3Bit", f"{BV}:BitVector", f"{BV}:Bit"])
p("A symbolic value is never silently taken for true",
  "Code that branches on a symbolic bit or vector (if x:, and, or, not, assert) raises, instead of taking one branch whatever the value.",
  "every function, every argument, every assignment", "quantifies over all client programs and all solver assignments",
  [f"{SM}:SMTBit.__bool__", f"{BV}:Bit.__bool__", f"{BV}:BitVector.__bool__", f"{SM}:SMTBitVector.__len__", f"{Z3}:z3BitVector.__len__", f"{Z3}:z3Bit"])
p("Vectors in lists are ordered, sorted and found by value",
  "Vectors of one width: of any two exactly one of x < y, x == y, x > y holds, and the reflected comparison agrees; if all are SIntVectors or none is, the six comparisons are those of int(x), sorted(l) is the stable sort of l by int(x), min(l) and max(l) are the first item with the least and greatest int(x); x in l, l.index(x) and l.count(x) go by the bits of the items, of whatever predefined classes; and of the three comparisons of two symbolic vectors exactly one is true under every assignment.",
  "every list of vectors of any length, every width, every value, every assignment", "quantifies over all lists and widths; a test sorts a few of them",
  [f"{BV}:BitVector.__lt__", f"{BV}:BitVector.__gt__", f"{BV}:BitVector.__eq__", f"{BV}:SIntVector.__lt__", f"{BV}:SIntVector.__gt__", f"{BV}:Bit.__bool__", f"{SM}:SMTBitVector.__lt__", f"{Z3}:z3BitVector.__lt__", f"{SM}:SMTBit.__bool__"])
p("Python functions that assign to bits mean the same with every family",
  "A Python function over vectors and bits with if, for, while, raise and try that also writes x[i] = v, gives objects further names and asks `x is y`, and never asks a vector or a bit for its truth value, ends with the symbolic families exactly when it ends in simulation, with the same Python result or exception, with the same names for one object, and with objects that stand for the simulated ones under every assignment; a solver proves the bit it returns iff simulation gives true for all inputs; and what it returns, `is` included, depends on the classes and widths of its arguments only.",
  "every function with any loops and handlers, every argument, every pattern of aliasing, every assignment", "quantifies over all client programs, aliasings and solver assignments",
  [f"{BV}:BitVector.__setitem__", f"{SM}:SMTBitVector.__setitem__", f"{Z3}:z3BitVector.__setitem__", f"{BV}:BitVector.bvurem", f"{SM}:SMTBitVector", f"{Z3}:z3BitVector", f"{BV}:BitVector"])
p("Symbolic vectors of user-defined classes compute as the class they derive from",
  "For every class derived from SMTBitVector, SMTSIntVector, z3BitVector, z3SIntVector, ... or from a sized class of theirs (by subclassing or by a modifier, overriding nothing): construction, methods, comparisons, readings, item assignment, operators, adc and ite give the same expressions and exceptions as on the predefined class of the same width; under every assignment the operators have the reference value, in the class of the left operand; structural results belong to the class of the new width.",
  "every class hierarchy, class, expression, argument and assignment", "all class hierarchies, all inputs and all assignments of the solver variables",
  [f"{SM}:SMTBitVector", f"{SM}:SMTSIntVector", f"{SM}:_coerce", f"{Z3}:z3BitVector", f"{Z3}:z3SIntVector", f"{Z3}:_coerce", f"{ABC}:AbstractBitVectorMeta.unsized_t"])
p("A pysmt formula can stand for the bit or vector it is the value of",
  "For every pysmt formula t: SMTBitVector[n](t) (and every other class of width n) takes exactly the formulas of sort BV(n), SMTBit(t) exactly the Boolean ones, TypeError otherwise; the result has the meaning of t under every assignment, so T(x.value) means x. As the second operand of a method, operator, comparison or of adc, and as element of a list of bits, t acts as the vector or bit of its value.",
  "every formula, class, vector, operator and assignment", "all formulas and all assignments of the solver variables",
  [f"{SM}:SMTBit.__init__", f"{SM}:SMTBitVector.__init__", f"{SM}:_coerce", f"{SM}:bv_cast", f"{SM}:bit_cast", f"{SM}:SMTBitVector.adc"])
p("A z3 expression can stand for the bit or vector it is the value of",
  "For every z3 expression t: z3BitVector[n](t) (and every other class of width n) takes the bit-vector expressions of n bits, TypeError for another width, and Boolean ones as 0 or 1; z3Bit(t) takes the Boolean ones; the result has the meaning of t under every assignment, so T(x.value) means x. As the second operand of a method, operator, comparison or of adc, as operand or carry, as a branch of ite beside a vector and as element of a list of bits, t acts as the vector or bit of its value.",
  "every expression, class, vector, operator and assignment", "all expressions and all assignments of the solver variables",
  [f"{Z3}:z3Bit.__init__", f"{Z3}:z3BitVector.__init__", f"{Z3}:_coerce", f"{Z3}:bv_cast", f"{Z3}:bit_cast", f"{Z3}:z3BitVector.adc", f"{Z3}:z3Bit.ite"])
p("A pysmt formula can stand for the integer it is the value of",
  "For every pysmt formula t: SMTInt(t) takes exactly the formulas of integer and of bit-vector sort, TypeError otherwise, and means the value of t, read as unsigned if t is a vector; SMTInt(x.value) means x for symbolic integers and vectors x. As operand of +, -, *, // and the comparisons of an SMTInt, on either side of the method, t acts as the int of its value.",
  "every formula, symbolic integer, operator and assignment", "all formulas and all assignments of the solver variables",
  ["hwtypes/smt_int.py:SMTInt.__init__", "hwtypes/smt_int.py:int_cast", "hwtypes/smt_int.py:SMTInt.__sub__", "hwtypes/smt_int.py:SMTInt.__floordiv__"])
p("Concrete vectors and bits can be mixed with symbolic ones",
  "For a symbolic vector x and a concrete vector Y of the same class and width: every operator and comparison between them, in either order, means under every assignment what it means for two concrete vectors; likewise for an SMTBit and a Bit. A concrete vector given to a symbolic constructor or operator counts as the number int(Y): pysmt classes raise ValueError if it is negative or does not fit, z3 classes take it modulo 2^n. pysmt and z3 objects do not mix: TypeError.",
  "every operator, class, width, vector, bit and assignment", "all widths, values and assignments of the solver variables",
  [f"{SM}:_coerce", f"{SM}:dispatch_oper", f"{SM}:SMTBitVector.__init__", f"{SM}:bit_cast", f"{Z3}:_coerce", f"{Z3}:z3BitVector.__init__", f"{BV}:_coerce", f"{BV}:dispatch_oper", f"{BV}:BitVector.__int__", f"{BV}:Bit.__bool__"])
p("Comparing ADT values with symbolic fields",
  "== and != of Tuple, Product, Sum and TaggedUnion values whose fields are vectors, bits and enum members mean the same with symbolic fields as with concrete ones: a bool that is returned is the one the simulation returns whatever the assignment, a symbolic bit stands for the simulation's. If a tuple needs the truth value of a symbolic comparison, TypeError is raised.",
  "every value, nesting, class, width and assignment", "all values, nestings and assignments of the solver variables",
  [f"{AD}:Tuple.__eq__", f"{AD}:Tuple.__ne__", f"{AD}:Sum.__eq__", f"{AD}:Sum.__ne__", f"{AD}:TaggedUnion.__eq__", f"{SM}:SMTBit.__bool__", f"{SM}:SMTBitVector.bveq", f"{Z3}:z3BitVector.bveq"])
p("Circuits whose multiplexers mix vector classes",
  "A function over vectors and bits that uses ite with branches of different vector classes of one width (signed, unsigned, plain, or results of other such multiplexers), then operators, comparisons, ext, concat and the other methods on the results, computes with SMTBitVector a term that under every assignment is what it computes with BitVector; it raises exactly when the simulation raises, and the same exception. So the solver proves an output exactly if simulation gives true for all inputs, and counterexamples replay.",
  "every function of this form, every nesting of multiplexers, every width, input and assignment", "functions, widths and assignments are unbounded; a test fixes one function and some inputs",
  [f"{UT}:build_ite", f"{UT}:determine_return_type", f"{UT}:PolyVector", f"{UT}:build_VCall", f"{SM}:SMTBit.ite", f"{BV}:Bit.ite", f"{SM}:SMTBitVector.ext", f"{BV}:BitVector.ext"])
p("Which objects follow the bit-vector protocol",
  "An object is an instance of BitVectorProtocol, and may be a branch of ite together with another object of its class, exactly if its type has _bitvector_t_, _from_bitvector_ and _to_bitvector_, without any inheritance; a class derived from BitVectorProtocol qualifies as well. A class derived from BitVectorProtocol accepts in isinstance only its own objects and those of its subclasses.",
  "every class, metaclass and inheritance graph", "classes and metaclasses are unbounded, the overridden checks call each other and climb the tower of metaclasses",
  [f"{UT}:BitVectorProtocol", f"{UT}:BitVectorProtocolMeta", f"{UT}:_BitVectorProtocolMetaMeta", f"{UT}:determine_return_type", f"{UT}:push_ite"])
p("rebind of modified classes and of classes with methods",
  "For every bound class T, also one that is modified, contains modified classes or has methods, T.rebind(A, B) is a class of the kind of T with the unbound_t, the __name__ and the field names of T in which the fields that are A (with rebind_sub_types: or derive from it) have become B, at every depth unless rebind_recursive is false; it raises TypeError exactly if the recursion meets an AnonymousProduct. Rebinding to a class that does not occur, and back, restores T up to the place of the modifiers, the attributes that are not fields, and alternatives that differ only in these.",
  "every bound class, every A and B, both flags, every order of the sets", "class trees are unbounded in depth and width, modifiers may sit at any of their nodes",
  [f"{AM}:_GetitemSyntax.rebind", f"{AM}:_AttrSyntax.rebind", "hwtypes/modifiers.py:make_modifier"])
p("ite with selector and branches from different families",
  "A concrete Bit selects between bits and vectors of any family: c.ite(t, f) returns exactly if the branches have the same tuple structure and at each place two objects of one class, or two concrete vectors of one width; the result is the selected branch, with the same contents at every place under every assignment of the symbols. An SMTBit selects between objects of its own family only. Two families are never mixed at one place: that raises TypeError; concrete leaves under an SMTBit raise AttributeError. z3Bit.ite instead converts concrete branches to z3 vectors.",
  "every selector of the concrete and the pysmt family, all nested tuples of bits and vectors of three families, every assignment of the symbols", "tuples are unbounded in depth and width; a test compares terms, not what they mean under all assignments",
  [f"{UT}:determine_return_type", f"{UT}:push_ite", f"{UT}:coerce_branch", f"{UT}:PolyType.__getitem__", f"{BV}:Bit.ite", f"{SM}:SMTBit.ite", f"{Z3}:z3Bit.ite"])
p("Circuits with state: unrolling and induction agree with simulation",
  "Let a circuit with registers be a function from state and inputs to the next state and an asserted bit. Unrolled over variables of SMTBitVector or z3BitVector for any number of cycles, the solver proves the assertions exactly if no simulation with BitVector violates one or raises; a counterexample, read back, replays in simulation cycle by cycle; a proof by induction over the cycles with any window implies that simulations of every length, with all inputs, raise nothing and keep the assertion.",
  "every circuit with state (C123's instructions, any reset, body and widths), every number of cycles, all parameters and inputs, every induction window", "simulations of all lengths; a proof over variables is compared with runs over all values",
  [f"{ABC}:AbstractBitVector", f"{BV}:BitVector", f"{SM}:SMTBitVector", f"{Z3}:z3BitVector", f"{SM}:SMTBit.ite", f"{Z3}:z3Bit.ite", f"{BV}:Bit.ite"])
p("Assigning to an object changes the ADT values that hold it and no others",
  "ADT values hold the objects they are made of, not copies. A value stays as it is under every sequence of operations on objects that are not among its parts, at any depth; an in-place change of a part, such as x[0] = 1 on a vector, makes every value with this part unequal to what it was. Construction gives the value made of the values of its arguments. Fields of a copy type(x)(*x), and of the values yielded by enumerate(), can be assigned without changing the original or the other yielded values, and the values yielded by enumerate() are independent of each other.",
  "every store of ADT objects, every class and history of constructions, assignments and in-place changes; every value that is a finite tree", "which objects are shared depends on the history; the histories, classes and depths are unbounded",
  [f"{AD}:Tuple.__init__", f"{AD}:Tuple.__setitem__", f"{AD}:Sum.__init__", f"{AD}:TaggedUnion.__init__", f"{AM}:TupleMeta.enumerate", f"{AM}:SumMeta.enumerate", f"{AM}:TaggedUnionMeta.enumerate"])
p("Field names lead to fields, other names to the library",
  "If the class statement of a Product, TaggedUnion or Enum is accepted, C.k is the type of field k (for an Enum its member) and x.k the value of field k (for a TaggedUnion its Match; on an Enum member AttributeError); every name that the statement and the user's base classes do not mention leads where it leads on a class without fields; and no field name takes the methods and properties of the library from a class or its instances.",
  "every class body, base classes of the user and field name", "names and class bodies are unbounded; which of two attributes wins depends on both classes, the metaclass and the instance",
  [f"{AM}:_AttrSyntax.__new__", f"{AM}:AnonymousProductMeta._namespace_from_idx", f"{AM}:TaggedUnionMeta._from_fields", f"{AM}:EnumMeta._from_fields", f"{AD}:Enum.__getattribute__", f"{AD}:AnonymousProduct.value_dict"])
p("if on bits replaced by ite",
  "A function over bits and vectors that branches with if can be rewritten to run both branches, merge the variables they assign with ite and guard each assert with the path condition. Where the rewritten function returns: run in simulation it has the values of the original, and the original raises AssertionError exactly when a guarded assertion is false; run over free variables with pysmt or z3, the solver proves the guarded assertions (or an output) exactly when the original passes (or has the output true) on all inputs; and whether it returns depends neither on the inputs nor on the family.",
  "every function with nested if/else and assert over the modelled operators, ports of any widths, all inputs and assignments", "functions, widths and inputs are unbounded; symbolic runs visit paths that no single concrete run visits",
  [f"{BV}:Bit.ite", f"{BV}:Bit.__bool__", f"{UT}:build_ite", f"{SM}:SMTBit.ite", f"{Z3}:z3Bit.ite"])
p("eval(repr(x)) of ADT values",
  "repr of an ADT value is a Python expression, and evaluated where its names have their meaning it returns an unassigned value with the same contents, equal to the original if that was never assigned to. This fails, and exactly then, when somewhere inside a vector is a field of a Product or AnonymousProduct or the value of a Sum or TaggedUnion (TypeError), or a TaggedUnion has several fields (ValueError). Tuple[()] prints no expression.",
  "all values of all nested ADT classes, all spellings of names and all namespaces that bind the printed names", "values nest without bound, and reading text back concerns every class and every namespace",
  [f"{AD}:Tuple.__repr__", f"{AD}:AnonymousProduct.__repr__", f"{AD}:Sum.__repr__", f"{AD}:TaggedUnion.__repr__", f"{AD}:Enum.__repr__", f"{AM}:BoundMeta._name_cb", f"{AM}:AnonymousProductMeta._name_from_idx", f"{BV}:BitVector.__repr__", f"{BV}:Bit.__repr__"])
p("functions with several returns replaced by ite",
  "A function over bits and vectors that returns tuples from inside nested ifs on bits can be rewritten to run every path to its return and merge the returned tuples entry by entry with ite, guarding each assert with the path condition. Where the rewritten function returns: run in simulation it returns the tuple the original returns, and the original raises AssertionError exactly when a guarded assertion is false; run over free variables with pysmt or z3, the solver proves the guarded assertions (or a returned bit) exactly when the original passes (or returns that bit true) on all inputs; and whether it returns depends neither on the inputs nor on the family.",
  "every function with early returns, nested if/else and assert over the modelled operators, ports of any widths, all inputs and assignments", "the number of paths grows with the function, and functions, widths and inputs are unbounded; one concrete run takes one return",
  [f"{BV}:Bit.ite", f"{BV}:Bit.__bool__", f"{UT}:build_ite", f"{SM}:SMTBit.ite", f"{Z3}:z3Bit.ite"])
p("while on bits, unrolled",
  "A function over bits and vectors with nested while loops on bits, if and assert can be rewritten by unrolling every loop k times: each turn is run whatever the condition, the loop variables are merged with ite, and after the last turn the condition is asserted to be false. Where the rewritten function returns: over free variables, pysmt or z3 prove its assertions (or an output) exactly when on all inputs the original raises nothing and takes at most k turns in every loop (and has the output true); it then has the same values; a proof for any k shows that the original stops on all inputs; and if the original stops on all inputs there is a k from which on the solver proves it.",
  "every function with nested loops, if and assert over the modelled operators, every k, ports of any widths, all inputs and assignments", "termination and the number of turns are claims about all inputs; functions, widths and k are unbounded",
  [f"{BV}:Bit.ite", f"{BV}:Bit.__bool__", f"{UT}:build_ite", f"{SM}:SMTBit.ite", f"{Z3}:z3Bit.ite"])
p("functions over records and unions mean the same with every family",
  "A function over Tuples, Products, Sums, TaggedUnions and enum members of vectors and bits, whose classes are declared with the BitVector and Bit of a family, can be run in simulation or with the pysmt or z3 family. Under every assignment the runs agree: the same variables refer to the same objects (so an assignment to a field is seen through the same names), of the same classes up to the family, with equal vectors and bits, the same branches on tags are taken, and the same exceptions are raised (z3: TypeError for InconsistentSizeError). A solver proves a computed bit over free variables exactly when simulation gives true on all inputs, and its counterexamples replay. Moving the classes with rebind_type instead has the same effect when their vectors are all BitVectors.",
  "every sequence of constructions, reads, assignments, tag tests and vector operations, every nesting and sharing of records, ports of any widths, all inputs and assignments", "functions, classes, sharing patterns, widths and inputs are unbounded",
  [f"{AD}:Tuple.__setitem__", f"{AD}:Product", f"{AD}:Sum.__init__", f"{AD}:TaggedUnion.__init__", f"{AU}:rebind_type", f"{BV}:Bit.ite", f"{SM}:SMTBit.ite", f"{Z3}:z3Bit.ite"])
p("vectors are Python sequences of bits",
  "No class defines __iter__, __contains__ or __reversed__, yet a vector is a Python sequence of its bits: list(x), for loops and *x give exactly the n Bits, the least significant first, and end without an exception; reversed(x) gives them backwards; a, b, ... = x works for exactly n targets and raises ValueError otherwise. T(list(x)) is x; two vectors have the same list iff they have the same width and value; list commutes with slices (exceptions included), concat and repeat. any(x) iff x is not 0, all(x) iff x is all ones, b in x iff some bit equals b. A loop that assigns x[i] while it goes through enumerate(x) sees the original bits. Symbolic vectors have the same bits under every assignment, in the same order, and are rebuilt by the constructor. A Tuple or Product is the sequence of its fields (without reversed: it has no __len__).",
  "all vectors of every width and class, all slices and counts, all assignments", "widths and values are unbounded, and the protocol is implicit: no method to test implements it",
  [f"{BV}:BitVector.__getitem__", f"{BV}:BitVector.__len__", f"{BV}:BitVector.__init__", f"{SM}:SMTBitVector.__getitem__", f"{Z3}:z3BitVector.__getitem__", f"{Z3}:z3Bit", f"{AD}:Tuple.__getitem__"])
p("copies of values are equal and independent",
  "copy.copy(x) of a vector, bit, enum member, Tuple, Sum or TaggedUnion is a new object of the same class and value with the same parts; assignments to one leave the other alone. copy.deepcopy(x) ends, changes no existing object, and its result has a new object for every object that can be reached from x and shares exactly what x shares; it equals x, and no assignment or in-place change of objects of one changes the other.",
  "every value in every store: all classes, depths and sharing patterns; every later history of assignments", "values, sharing and histories are unbounded, and the library has no copying code: what copying does follows from __new__",
  [f"{AD}:Tuple.__new__", f"{AM}:AnonymousProductMeta._from_idx", f"{AM}:EnumMeta.Auto", f"{AD}:Enum.__eq__", f"{AD}:Tuple.__setitem__"])
p("dictionaries with ADT values as keys are maps on values",
  "In every program that makes, reads and assigns ADT values and stores, finds and deletes entries of a dictionary under them, what is stored under a key is found under every object equal to it and under no other, whatever the hash function; a value with a part that has been assigned to raises TypeError as a key.",
  "every program over ADT values of any depth and sharing, every hash function", "programs, values and hash functions are unbounded, and which objects share parts with keys depends on the history",
  [f"{AD}:Tuple.__hash__", f"{AD}:Tuple.__eq__", f"{AD}:Sum.__hash__", f"{AD}:TaggedUnion.__hash__", f"{AD}:Enum.__hash__", f"{AD}:Tuple.__setitem__"])
p("sizing a class keeps its method resolution order",
  "In every history of classes, T[n] of an unsized vector class T can be made, every method is found in T[n] where it is found in T, and T[n] inherits from S[n] for every vector class S above T, in the order of T's MRO.",
  "every history of class statements, sizings and collections, every class and size", "class hierarchies are unbounded, and whether the C3 linearisation of the sized classes exists depends on the whole hierarchy",
  [f"{ABC}:AbstractBitVectorMeta.__getitem__", f"{ABC}:AbstractBitVectorMeta.__new__"])
p("when a type modifier applies, and what the modified class inherits",
  "M(T) can be made for every class T none of whose ancestors (T included) was made by M; M(T) has the kind and the fields of T, and every attribute is found in M(T) where it is found in T: its MRO is that of T with each class preceded by its modified version.",
  "every history of class statements, T[...], modifiers and collections, every class and modifier", "class hierarchies are unbounded, and whether the modified bases have a C3 linearisation and compatible fields depends on the whole hierarchy",
  ["hwtypes/modifiers.py:_ModifierMeta.__call__", f"{AM}:BoundMeta.__new__"])
p("binding an algebraic data type keeps its methods",
  "In every history of classes, an attribute that bound classes do not define themselves is found in T[...] where it is found in T, and in a class statement with fields where the same statement without fields finds it.",
  "every history of class statements, T[...], modifiers and collections, every class and argument", "class hierarchies are unbounded, and the MRO of a bound class is a C3 merge over the bound versions of all its ancestors",
  [f"{AM}:BoundMeta._from_idx", f"{AM}:AnonymousProductMeta._bases_from_idx", f"{AM}:ProductMeta._from_fields", f"{AM}:TaggedUnionMeta._from_fields"])
p("the operators agree with gate-level circuits at every width",
  "A ripple-carry adder, a subtractor, signed and unsigned comparators, a shift-and-add multiplier, barrel shifters and a restoring divider, written with x[i], Bit operations, ite and simpler methods, give what adc, bvadd, bvsub, bvult, bvule, bveq, bvslt, bvsle, bvmul, bvshl, bvlshr, bvashr, bvudiv and bvurem give, in simulation and under every assignment in the SMT and z3 families.",
  "every width, class, pair of operands, carry in and assignment", "the circuits grow with the width and the operands are exponentially many; a test checks one width",
  [f"{BV}:BitVector.adc", f"{BV}:BitVector.bvudiv", f"{BV}:BitVector.bvurem", f"{BV}:BitVector.bvmul", f"{BV}:BitVector.__getitem__", f"{SM}:SMTBitVector.bvmul", f"{Z3}:z3BitVector.bvudiv"])
p("the usual rewrites of arithmetic into cheaper operations change nothing",
  "At every positive width -x is ~x + 1, x - y is x + -y, x * 2**k is x << k, x // 2**k is x >> k, x % 2**k is x & (2**k - 1), x.sext(m) is zext, shift left and arithmetic shift right, bvrol is two shifts and an or, x + y is (x ^ y) + ((x & y) << 1), x | y is (x ^ y) + (x & y), (x & y) + ((x ^ y) >> 1) is the average of x and y, De Morgan holds, ite is a mask with -1 or 0, a signed comparison is an unsigned one with the sign bits flipped and the carry of adc is x + y < x: both sides succeed with the same value, in simulation and under every assignment in the SMT and z3 families.",
  "every width, predefined class, operand, shift amount and assignment", "the operands are exponentially many in the width and the symbolic families must agree under every assignment",
  [f"{BV}:BitVector.bvneg", f"{BV}:BitVector.bvmul", f"{BV}:BitVector.bvudiv", f"{BV}:BitVector.bvurem", f"{BV}:BitVector.sext", f"{BV}:BitVector.bvrol", f"{BV}:BitVector.adc", f"{BV}:BitVector.bvslt", f"{SM}:SMTBitVector.bvneg", f"{Z3}:z3BitVector.bvurem"])
p("code that only moves bits is wiring, the same for all values",
  "A function made of constants, x[i], x[lo:hi], concat, zext, sext, rotations and shifts by ints, ~ and bitwise methods with an int operand either fails on all inputs of the declared classes and widths, with one exception in simulation, or succeeds on all of them; then there is one drawing of wires and inverters, fixed by the classes and widths alone, that gives every digit of every value it makes, in simulation and under every assignment in the SMT and z3 families. So a digit of a result depends on at most one digit of the inputs.",
  "every such function, every declaration of its inputs, every input and assignment", "functions and inputs are unbounded; a test sees some values of one function and cannot tell that no other value is treated differently",
  [f"{BV}:BitVector.__getitem__", f"{BV}:BitVector.concat", f"{BV}:BitVector.zext", f"{BV}:BitVector.sext", f"{BV}:BitVector.bvrol", f"{BV}:BitVector.bvror", f"{BV}:BitVector.bvshl", f"{BV}:BitVector.bvashr", f"{SM}:SMTBitVector.concat", f"{Z3}:z3BitVector.concat"])
p("the low digits of a result can be computed at a smaller width",
  "Let a function over vectors of width n use constants, ~, -, bvand, bvor, bvxor, bvnand, bvnor, bvxnor, bvadd, bvsub, bvmul, bvshl by an int c with 0 <= c < 2**k, x[i] with i < k, ite and operations on bits. Run with the first k digits x[0:k] of its inputs, and its constants made at width k, it raises the same exception, or its vectors are the first k digits of those at width n and its bits the same bits: in simulation and under every assignment in the SMT and z3 families. So no digit of a result depends on higher digits of the inputs.",
  "every such function, every pair of widths 0 < k <= n, every input and assignment", "functions, widths and inputs are unbounded; a test compares two widths on some values",
  [f"{BV}:BitVector.bvadd", f"{BV}:BitVector.bvsub", f"{BV}:BitVector.bvmul", f"{BV}:BitVector.bvneg", f"{BV}:BitVector.bvshl", f"{BV}:BitVector.__getitem__", f"{BV}:Bit.ite", f"{SM}:SMTBitVector.bvmul", f"{Z3}:z3BitVector.bvmul"])
p("code of moves and exclusive ors is a net of parities",
  "Let a function use constants, slices, indexing, concatenation, extension, rotation and shifts by ints, ~, bitwise methods with an int, bvxor and bvxnor of two values, and ^, == and != of two bits. For given classes and widths of its inputs it raises on all inputs or on none; and if on none, every digit of every result is the parity of a set of input digits, or its inverse, that is the same for all inputs in simulation and for all assignments in the SMT and z3 families. So which digits of a result change depends only on which digits of the inputs change: checksums, Gray codes and scramblers written with these classes are affine.",
  "every such function, all classes, widths, inputs and assignments", "functions, widths and inputs are unbounded; a test compares some changes of some inputs",
  [f"{BV}:BitVector.bvxor", f"{BV}:BitVector.bvxnor", f"{BV}:Bit.__xor__", f"{BV}:Bit.__eq__", f"{BV}:BitVector.bvlshr", f"{BV}:BitVector.concat", f"{SM}:SMTBitVector.bvxor", f"{Z3}:z3BitVector.bvxor"])
p("bitwise code works on every part of its vectors separately",
  "Let a function over vectors of width n use constants, ~, bvand, bvor, bvxor, bvnand, bvnor, bvxnor with vectors or ints, ite and operations on bits. Run with the parts x[lo:lo+k] of its vectors, and the same digits of its constants, it raises the same exception, or its vectors are the parts [lo:lo+k] of those at width n and its bits the same bits: in simulation and under every assignment in the SMT and z3 families. So vectors can be cut anywhere and the results put together with concat, and n cases can be packed in one vector of width n.",
  "every such function, all widths and positions with 0 < k and lo + k <= n, every input and assignment", "functions, widths, positions and inputs are unbounded; a test cuts some vectors at some places",
  [f"{BV}:BitVector.bvand", f"{BV}:BitVector.bvor", f"{BV}:BitVector.bvxor", f"{BV}:BitVector.bvnot", f"{BV}:BitVector.__getitem__", f"{BV}:BitVector.concat", f"{BV}:Bit.ite", f"{SM}:SMTBitVector.bvand", f"{Z3}:z3BitVector.bvand"])
p("solvers decide whether two functions are equivalent",
  "Run two functions over the same free variables and compare an output of each with bveq, or with == for bits. The comparison is valid in the SMT family, and in the z3 family, exactly if in simulation both functions return on every input and the two outputs are equal vectors of one width (equal bits). An assignment under which the comparison is false, read back into the ports, is an input on which both simulations return and the outputs differ.",
  "every pair of functions, ports, outputs, simplifier and assignment", "pairs of functions, widths and inputs are unbounded; a test compares some functions on some inputs",
  [f"{BV}:BitVector.bveq", f"{BV}:Bit.__eq__", f"{SM}:SMTBitVector.bveq", f"{SM}:SMTBit.__eq__", f"{Z3}:z3BitVector.bveq", f"{Z3}:z3Bit.__eq__"])
p("code of moves, ands and ors is monotone",
  "Let a function use constants, slices, indexing, concat, zext, sext, rotations and shifts by constants, bvand and bvor with ints or values, and & and | on bits. If every digit set in some inputs is also set in other inputs of the same classes and widths, then on both it raises the same exception, or every digit set in a value computed from the former is set in the value computed from the latter. With free variables, in the SMT and z3 families, an output bit true under an assignment is true under every assignment that sets more digits.",
  "every such function, all widths, every pair of inputs and of assignments", "functions, widths and pairs of inputs are unbounded; a test compares some pairs",
  [f"{BV}:BitVector.bvand", f"{BV}:BitVector.bvor", f"{BV}:BitVector.bvshl", f"{BV}:BitVector.bvlshr", f"{BV}:BitVector.bvashr", f"{BV}:BitVector.concat", f"{BV}:BitVector.sext", f"{BV}:BitVector.zext", f"{BV}:BitVector.__getitem__", f"{BV}:Bit.__and__", f"{BV}:Bit.__or__", f"{SM}:SMTBitVector.bvand", f"{Z3}:z3BitVector.bvand"])
p("De Morgan's laws hold for whole functions",
  "Let a function on vectors of one width use constants, ~, bvand, bvor, bvxor, bvnand, bvnor, bvxnor with ints or vectors, ite, and ~, &, |, ^, == and != on bits. Exchange in it and with or, nand with nor, xor with xnor, on bits xor and != with ==, invert its constants and swap the branches of every ite. On inverted inputs the new function raises if the old one raises on the inputs themselves, and otherwise every value it computes is the inverted value of the old one; in simulation, and in the SMT and z3 families under every assignment.",
  "every such function, all widths, every input and assignment", "functions, widths and inputs are unbounded; a test checks the laws for some operators and values",
  [f"{BV}:BitVector.bvnot", f"{BV}:BitVector.bvand", f"{BV}:BitVector.bvor", f"{BV}:BitVector.bvxor", f"{BV}:BitVector.bvnand", f"{BV}:BitVector.bvnor", f"{BV}:BitVector.bvxnor", f"{BV}:Bit.ite", f"{BV}:Bit.__and__", f"{BV}:Bit.__or__", f"{BV}:Bit.__invert__", f"{SM}:SMTBitVector.bvand", f"{Z3}:z3BitVector.bvand"])
out = os.path.join(os.path.dirname(os.path.dirname(os.path.abspath(__file__))), 'properties.jsonl')
with open(out,'w') as f:
    for x in P: f.write(json.dumps(x)+"\n")
print(len(P))
for x in P: print(x['id'], x['title'])
