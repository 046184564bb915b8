{"id": "C01", "title": "Stored value is always canonical", "statement": "Every BitVector[n] obtained from the constructor, from any method or operator, or by any sequence of item assignments satisfies 0 <= x.as_uint() < 2**n; no operation can leave an object whose value does not fit its declared width.", "quantifier": "every width n >= 0, every constructor argument, every method/operator with every operand, every sequence of item assignments", "why_tests_cant": "Widths and integers are unbounded and the invariant must survive arbitrary compositions of operations; tests sample widths 1,2,4,8 and a few random values.", "anchors": ["hwtypes/bit_vector.py:BitVector.__init__", "hwtypes/bit_vector.py:BitVector.__setitem__", "hwtypes/bit_vector.py:BitVector.as_uint"]}
{"id": "C02", "title": "Constructor arithmetic", "statement": "BitVector[n](v) denotes v mod 2**n for every Python int v (also negative and arbitrarily large); from a Bit it is 0/1; from another BitVector it is the same number reduced mod 2**n; from a sequence it is the number whose bit i is the truth value of element i, reduced mod 2**n; any object without an integer interpretation is rejected with TypeError.", "quantifier": "every width, every int, bool, Bit, BitVector of every other width, sequence of every length, and other object", "why_tests_cant": "Infinite domain of ints, lengths and widths (tests check 7 literals at width 2).", "anchors": ["hwtypes/bit_vector.py:BitVector.__init__", "hwtypes/bit_vector.py:seq2int"]}
{"id": "C03", "title": "Two's-complement interpretation", "statement": "For n >= 1, x.as_sint() is the unique integer in [-2**(n-1), 2**(n-1)) congruent to x.as_uint() mod 2**n, so T(x.as_sint()) == T(x.as_uint()) == x; int(x) is as_sint for SIntVector and as_uint otherwise; a zero-width vector has no sign bit and as_sint raises IndexError.", "quantifier": "every width and every value", "why_tests_cant": "The sign boundary lies at a different value for each of infinitely many widths.", "anchors": ["hwtypes/bit_vector.py:BitVector.as_sint", "hwtypes/bit_vector.py:BitVector.__int__", "hwtypes/bit_vector.py:SIntVector.__int__"]}
{"id": "C04", "title": "Bit list and binary-string round trips", "statement": "x.bits() has exactly n entries, each 0 or 1, least significant first; T(x.bits()) == x; seq2int and int2seq are mutually inverse on n-bit numbers; binary_string() has n characters, most significant first, and reading it in base 2 gives as_uint(); as_binary_string() is 0b followed by it; as_bool_list() is the list of bits as bools, and T(x.as_bool_list()) == x.", "quantifier": "every width, every value, every bit list", "why_tests_cant": "Round trips must hold for every length; tests use one literal.", "anchors": ["hwtypes/bit_vector.py:seq2int", "hwtypes/bit_vector.py:int2seq", "hwtypes/bit_vector.py:BitVector.bits", "hwtypes/bit_vector.py:BitVector.binary_string", "hwtypes/bit_vector.py:BitVector.as_binary_string", "hwtypes/bit_vector.py:BitVector.as_bool_list"]}
{"id": "C05", "title": "Modular arithmetic", "statement": "bvadd, bvsub, bvmul and bvneg (and +, -, *, unary -) compute exactly the integer sum, difference, product and negation of the operands modulo 2**n; hence they form a commutative ring in which the signed and the unsigned reading give the same result bits.", "quantifier": "every width and every pair of operands", "why_tests_cant": "Overflow behaviour at every width; tests sample random operands at four widths.", "anchors": ["hwtypes/bit_vector.py:BitVector.bvadd", "hwtypes/bit_vector.py:BitVector.bvsub", "hwtypes/bit_vector.py:BitVector.bvmul", "hwtypes/bit_vector.py:BitVector.bvneg"]}
{"id": "C06", "title": "Bitwise operations are pointwise", "statement": "Bit i of bvnot/bvand/bvor/bvxor/bvnand/bvnor/bvxnor is the Boolean function of bit i of the operands, for every i < n.", "quantifier": "every width, operands and bit position", "why_tests_cant": "Pointwise law over every bit position of every width (negative intermediate ints such as ~x must be masked correctly).", "anchors": ["hwtypes/bit_vector.py:BitVector.bvnot", "hwtypes/bit_vector.py:BitVector.bvand", "hwtypes/bit_vector.py:BitVector.bvor", "hwtypes/bit_vector.py:BitVector.bvxor", "hwtypes/bit_vector_abc.py:AbstractBitVector.bvnand", "hwtypes/bit_vector_abc.py:AbstractBitVector.bvnor", "hwtypes/bit_vector_abc.py:AbstractBitVector.bvxnor"]}
{"id": "C07", "title": "Shifts for every shift amount", "statement": "For vector operands of one width, bvshl multiplies by 2**k mod 2**n, bvlshr is floor division of the unsigned value by 2**k and bvashr is floor division of the signed value by 2**k; when k >= n they give 0, 0 and the sign fill. A Python int shift amount behaves as that amount.", "quantifier": "every width, every value, every shift amount (vector or int)", "why_tests_cant": "Shift amounts far beyond the width and the interaction with coercion cannot be enumerated.", "anchors": ["hwtypes/bit_vector.py:BitVector.bvshl", "hwtypes/bit_vector.py:BitVector.bvlshr", "hwtypes/bit_vector.py:BitVector.bvashr", "hwtypes/bit_vector.py:_coerce"]}
{"id": "C08", "title": "Rotations", "statement": "For n >= 1, bit (i+k) mod n of x.bvrol(k) is bit i of x, and bit i of x.bvror(k) is bit (i+k) mod n of x, for every amount k; rotating left and right by the same amount are mutually inverse; the type is unchanged.", "quantifier": "every width >= 1, every value, every rotation amount", "why_tests_cant": "Modular index arithmetic over all widths (non powers of two in particular); the repo has no rotation test at all.", "anchors": ["hwtypes/bit_vector.py:BitVector.bvrol", "hwtypes/bit_vector.py:BitVector.bvror"]}
{"id": "C09", "title": "Unsigned comparisons", "statement": "bveq, bvne, bvult, bvule, bvugt, bvuge (and ==, !=, <, <=, >, >= on unsigned types) agree with the order of as_uint(); exactly one of <, ==, > holds; bvcomp is the one-bit vector of equality.", "quantifier": "every width and every pair of values", "why_tests_cant": "Order laws over all pairs.", "anchors": ["hwtypes/bit_vector.py:BitVector.bvult", "hwtypes/bit_vector.py:BitVector.bvule", "hwtypes/bit_vector.py:BitVector.bvugt", "hwtypes/bit_vector.py:BitVector.bvuge", "hwtypes/bit_vector.py:BitVector.bveq", "hwtypes/bit_vector.py:BitVector.bvne", "hwtypes/bit_vector.py:BitVector.bvcomp"]}
{"id": "C10", "title": "Signed comparisons", "statement": "bvslt, bvsle, bvsgt, bvsge (and <, <=, >, >= on SIntVector) agree with the order of as_sint(); exactly one of signed <, ==, signed > holds.", "quantifier": "every width >= 1 and every pair of values", "why_tests_cant": "The derived forms (not, or) must be right at the sign boundary of every width.", "anchors": ["hwtypes/bit_vector.py:BitVector.bvslt", "hwtypes/bit_vector_abc.py:AbstractBitVector.bvsle", "hwtypes/bit_vector_abc.py:AbstractBitVector.bvsgt", "hwtypes/bit_vector_abc.py:AbstractBitVector.bvsge"]}
{"id": "C11", "title": "Unsigned division and remainder", "statement": "For b != 0, a == (a // b) * b + a % b with a % b < b on unsigned values and no wrap-around; a // 0 is the all-ones vector and a % 0 is a (SMT-LIB totalisation).", "quantifier": "every width and every pair of operands including divisor zero", "why_tests_cant": "Must hold for every pair at every width.", "anchors": ["hwtypes/bit_vector.py:BitVector.bvudiv", "hwtypes/bit_vector.py:BitVector.bvurem"]}
{"id": "C12", "title": "Signed division and remainder follow SMT-LIB", "statement": "bvsdiv and bvsrem are the SMT-LIB operations of that name (quotient truncated toward zero, remainder with the sign of the dividend), on every operand including divisor zero.", "quantifier": "every width >= 1 and every pair of operands", "why_tests_cant": "The repo has no test of signed division with operands of different sign; only a proof over all operands can show where the two definitions part.", "anchors": ["hwtypes/bit_vector.py:BitVector.bvsdiv", "hwtypes/bit_vector.py:BitVector.bvsrem"]}
{"id": "C13", "title": "Signed division and remainder are a division algorithm", "statement": "For b != 0 bvsdiv and bvsrem satisfy a == q*b + r in the modular sense, with q = floor(a/b) reduced to n bits and r the floor remainder (0 <= r < b or b < r <= 0, so r has the sign of the divisor); for b == 0, q is all ones and r is a.", "quantifier": "every width >= 1, every pair of operands", "why_tests_cant": "Includes the single overflowing case (-2**(n-1)) // -1 at every width.", "anchors": ["hwtypes/bit_vector.py:BitVector.bvsdiv", "hwtypes/bit_vector.py:BitVector.bvsrem"]}
{"id": "C14", "title": "Concatenation layout", "statement": "a.concat(b) has width |a|+|b|, its low |a| bits are a and its high bits are b (value a + b*2**|a|); slicing recovers both parts; concatenation is associative; its bits() is a.bits() + b.bits().", "quantifier": "every pair of widths and values", "why_tests_cant": "Two independent unbounded widths.", "anchors": ["hwtypes/bit_vector.py:BitVector.concat"]}
{"id": "C15", "title": "Indexing and slicing", "statement": "x[i] is bit i for 0 <= i < n and bit n+i for -n <= i < 0, and IndexError is raised for every other int; x[a:b:s] is the vector whose bits are exactly Python's list slice of x.bits() with those bounds, for every (possibly missing, negative, out-of-range) bound and every step, and its width is the number of selected bits; any other key raises TypeError.", "quantifier": "every width, value, index, and slice triple", "why_tests_cant": "Unbounded space of start/stop/step combinations; slice clamping is notoriously error-prone.", "anchors": ["hwtypes/bit_vector.py:BitVector.__getitem__"]}
{"id": "C16", "title": "Item assignment is a single-bit update", "statement": "After x[i] = b (b a Bit, bool, 0 or 1), x[i] == b and every other bit and the type of x are unchanged; out-of-range indices raise IndexError, non-bit values raise ValueError, slices raise NotImplementedError, and a failed assignment leaves x unchanged; after any history of assignments each bit holds the last value assigned to it.", "quantifier": "every width, value, index, bit and every history of assignments", "why_tests_cant": "Histories are unbounded; tests do three assignments on one literal.", "anchors": ["hwtypes/bit_vector.py:BitVector.__setitem__"]}
{"id": "C17", "title": "Zero extension", "statement": "x.zext(k) has width n+k and the same as_uint(), for every k >= 0; negative k raises ValueError.", "quantifier": "every width, value and k", "why_tests_cant": "unbounded widths and amounts", "anchors": ["hwtypes/bit_vector.py:BitVector.zext"]}
{"id": "C18", "title": "Sign extension", "statement": "x.sext(k) has width n+k and the same as_sint(), for every k >= 0; negative k raises ValueError.", "quantifier": "every width >= 1, value and k (k = 0 included)", "why_tests_cant": "Tests only draw k >= 15; the boundary k = 0 is never hit.", "anchors": ["hwtypes/bit_vector.py:BitVector.sext"]}
{"id": "C19", "title": "Repetition", "statement": "x.repeat(r) has width r*n and bit j equal to bit j mod n of x for every r >= 1; r <= 0 raises ValueError.", "quantifier": "every width, value and r", "why_tests_cant": "unbounded widths and counts; no unit test exists", "anchors": ["hwtypes/bit_vector.py:BitVector.repeat"]}
{"id": "C20", "title": "Add with carry", "statement": "(s, c) = a.adc(b, cin) satisfies s.as_uint() + 2**n * c == a.as_uint() + b.as_uint() + cin with s of a's type and c a Bit, so chaining adc over limbs adds wide numbers exactly.", "quantifier": "every width, operands and carry", "why_tests_cant": "unbounded widths; exactness, not just modular equality", "anchors": ["hwtypes/bit_vector.py:BitVector.adc"]}
{"id": "C21", "title": "Signed overflow detector", "statement": "overflow(a, b, a+b) is true iff the mathematical sum of the signed values of a and b does not fit in n bits.", "quantifier": "every width >= 1 and pair of operands", "why_tests_cant": "holds only as an all-pairs statement", "anchors": ["hwtypes/bit_vector.py:overflow"]}
{"id": "C22", "title": "Width mismatch is always rejected", "statement": "Every binary method and operator applied to two vectors of different widths raises InconsistentSizeError, whichever operand is on the left and whatever their classes; none silently extends or truncates.", "quantifier": "every binary method/operator, every pair of different widths, every pair of classes and values", "why_tests_cant": "Quadratic in widths and classes and linear in operators; tests try widths 1 and 2 for one class.", "anchors": ["hwtypes/bit_vector.py:_coerce", "hwtypes/bit_vector.py:bv_cast", "hwtypes/bit_vector.py:dispatch_oper", "hwtypes/bit_vector.py:dispatch_roper"]}
{"id": "C23", "title": "Operators agree with methods and coerce Python ints on either side", "statement": "For a vector x of class T and an int k, x op k equals x op T(k), and k op x equals T(k) op x, for every arithmetic, bitwise, shift and comparison operator; on two vectors of the same class the operator equals the corresponding bv method.", "quantifier": "every operator, width, class, value and int", "why_tests_cant": "Reflected operators are only sampled with random values for which a wrong operand order is nearly invisible (16-bit shifts).", "anchors": ["hwtypes/bit_vector.py:dispatch_oper", "hwtypes/bit_vector.py:dispatch_roper", "hwtypes/bit_vector.py:BitVector.__rrshift__"]}
{"id": "C24", "title": "Uncoercible operands give TypeError", "statement": "x op obj and obj op x, for an object that cannot be interpreted as an integer, raise TypeError for arithmetic, bitwise, shift and ordering operators, while x == obj is False and x != obj is True.", "quantifier": "every operator, width, class, value, and uncoercible object on either side", "why_tests_cant": "No test exercises the reflected error path.", "anchors": ["hwtypes/bit_vector.py:dispatch_oper", "hwtypes/bit_vector.py:dispatch_roper"]}
{"id": "C25", "title": "Signedness of operators follows the class", "statement": ">>, //, %, <, <=, >, >= are the unsigned operations on BitVector/NumVector/UIntVector pairs and the signed ones on SIntVector pairs; when a BitVector or NumVector meets an SIntVector the signed operation is used whichever side it is on.", "quantifier": "every operator, width, class pair and value pair", "why_tests_cant": "Depends on Python's subclass-priority rule for reflected operators, for all class pairs.", "anchors": ["hwtypes/bit_vector.py:SIntVector", "hwtypes/bit_vector.py:BitVector"]}
{"id": "C26", "title": "Hash/equality contract", "statement": "If two vectors of one type are equal then their hashes are equal, and two vectors of the same type with different values or of different types have different hash keys; Bits likewise.", "quantifier": "every type and pair of values", "why_tests_cant": "all pairs", "anchors": ["hwtypes/bit_vector.py:BitVector.__hash__", "hwtypes/bit_vector.py:Bit.__hash__"]}
{"id": "C27", "title": "ite selects", "statement": "c.ite(t, f) for two vectors of one type returns a vector of that type equal to t if c is true and to f otherwise; for a vector condition, nonzero means true; for tuples of equal shape (any nesting) it selects component-wise, so the result equals the selected branch.", "quantifier": "every condition, every pair of same-shaped (arbitrarily nested) branches", "why_tests_cant": "Nesting depth and width are unbounded.", "anchors": ["hwtypes/bit_vector.py:Bit.ite", "hwtypes/bit_vector.py:BitVector.ite", "hwtypes/bit_vector_util.py:build_ite", "hwtypes/bit_vector_util.py:push_ite", "hwtypes/bit_vector_util.py:coerce_branch"]}
{"id": "C28", "title": "ite type errors do not depend on the condition", "statement": "Whether c.ite(t, f) raises, and which exception, depends only on the types and shapes of t and f, never on the value of c or of the branches (so a concrete simulation rejects exactly what a symbolic execution rejects).", "quantifier": "every pair of branches of arbitrary nesting and both conditions", "why_tests_cant": "Quantifies over all shape pairs.", "anchors": ["hwtypes/bit_vector_util.py:determine_return_type", "hwtypes/bit_vector_util.py:build_ite"]}
{"id": "C29", "title": "Polymorphic ite result behaves like the selected branch", "statement": "If t and f are vectors of equal width but different classes, every sign-dependent operator (>>, //, %, <, <=, >, >=, ext) applied to c.ite(t, f) has the value it would have on the selected branch's class, for arbitrarily nested polymorphic values, and so has int(). The class of c.ite(t, f) derives from exactly the predefined classes that both branch classes derive from.", "quantifier": "every condition, class pair, nesting depth, value, operator and operand", "why_tests_cant": "The dispatch tree is unboundedly deep; tests check four shapes.", "anchors": ["hwtypes/bit_vector_util.py:build_VCall", "hwtypes/bit_vector_util.py:PolyType.__getitem__", "hwtypes/bit_vector_util.py:PolyVector"]}
{"id": "C30", "title": "Bit is the two-element Boolean algebra", "statement": "Bit construction accepts exactly Bits, bools, the ints 0 and 1, and objects with a truth value (other ints: ValueError; else TypeError); ~ & | ^ == != are the Boolean operations, also with bool/0/1 operands on either side.", "quantifier": "every constructor argument and operand", "why_tests_cant": "every int and object", "anchors": ["hwtypes/bit_vector.py:Bit", "hwtypes/bit_vector.py:bit_cast"]}
{"id": "C31", "title": "Sized vector classes are interned", "statement": "In every history of subclass creations and size bindings, while T[n] is referenced T[n] always returns the same class object; T[n] has size n and unsized_t T; T[n] is T[m] only if n == m, and T[n] is S[n] only if T is S; a sized class cannot be sized again (TypeError), negative sizes raise ValueError.", "quantifier": "every history of class creation/binding operations and every unsized class hierarchy", "why_tests_cant": "History-quantified identity property.", "anchors": ["hwtypes/bit_vector_abc.py:AbstractBitVectorMeta.__getitem__", "hwtypes/bit_vector_abc.py:AbstractBitVectorMeta.__new__"]}
{"id": "C32", "title": "Sizing preserves the class hierarchy", "statement": "If S is a subclass of T then S[n] is a subclass of T[n] (and of T and S); no sized class is a subclass of a differently sized class; a class inheriting from two different sizes is rejected with TypeError.", "quantifier": "every history building an arbitrary hierarchy, every pair of classes and sizes", "why_tests_cant": "Arbitrary DAG hierarchies.", "anchors": ["hwtypes/bit_vector_abc.py:AbstractBitVectorMeta.__getitem__", "hwtypes/bit_vector_abc.py:AbstractBitVectorMeta.__new__"]}
{"id": "C33", "title": "Implicit sizing is lossless", "statement": "The (deprecated) unsized constructor T(v) picks a width (the vector's own for a vector argument, otherwise at least 1 and, for ints, minimal) in which a non-negative int, a vector, a Bit, or a sequence is represented without loss.", "quantifier": "every non-negative int, vector, bit and sequence", "why_tests_cant": "unbounded domain", "anchors": ["hwtypes/bit_vector_abc.py:AbstractBitVectorMeta.__call__"]}
{"id": "C34", "title": "Symbolic operations denote the concrete ones", "statement": "For every assignment of the symbolic variables, evaluating the term built by an SMTBitVector operation (not, and, or, xor, nand, nor, xnor, shl, lshr, ashr, neg, add, sub, mul, udiv, urem, comp, eq, ne, ult, ule, ugt, uge, slt, sle, sgt, sge) equals applying the BitVector operation of the same name to the evaluated operands.", "quantifier": "every width, every pair of symbolic terms, every assignment", "why_tests_cant": "Symbolic terms and assignments are unbounded; the repo tests only the result type.", "anchors": ["hwtypes/smt_bit_vector.py:SMTBitVector", "hwtypes/bit_vector.py:BitVector"]}
{"id": "C35", "title": "Symbolic and concrete signed division agree", "statement": "bvsdiv and bvsrem (// and % on signed vectors) give the same value on BitVector and on SMTBitVector for all operands.", "quantifier": "every width >= 1, every pair of operands", "why_tests_cant": "Tests never evaluate symbolic signed division.", "anchors": ["hwtypes/smt_bit_vector.py:SMTBitVector.bvsdiv", "hwtypes/smt_bit_vector.py:SMTBitVector.bvsrem", "hwtypes/bit_vector.py:BitVector.bvsdiv", "hwtypes/bit_vector.py:BitVector.bvsrem"]}
{"id": "C36", "title": "Symbolic structure operations denote the concrete ones", "statement": "Indexing, slicing (step 1, non-empty and in range), concatenation, zero/sign extension (by k >= 1), add-with-carry, item assignment and construction from int/Bit/vector/sequence of exactly n bits on SMTBitVector evaluate, for every assignment, to the corresponding BitVector operation on the evaluated operands.", "quantifier": "every width, term, assignment, index, slice", "why_tests_cant": "unbounded", "anchors": ["hwtypes/smt_bit_vector.py:SMTBitVector.__getitem__", "hwtypes/smt_bit_vector.py:SMTBitVector.concat", "hwtypes/smt_bit_vector.py:SMTBitVector.zext", "hwtypes/smt_bit_vector.py:SMTBitVector.sext", "hwtypes/smt_bit_vector.py:SMTBitVector.adc", "hwtypes/smt_bit_vector.py:SMTBitVector.__setitem__", "hwtypes/smt_bit_vector.py:SMTBitVector.__init__"]}
{"id": "C37", "title": "Symbolic repeat", "statement": "SMTBitVector.repeat(r) evaluates to BitVector.repeat(r) for every r >= 1.", "quantifier": "every width, term and r", "why_tests_cant": "no unit test exists", "anchors": ["hwtypes/smt_bit_vector.py:SMTBitVector.repeat"]}
{"id": "C38", "title": "Symbolic ite", "statement": "SMTBit.ite evaluates, for every assignment, to the branch selected by the evaluated condition, component-wise through tuples, and raises exactly when the concrete Bit.ite raises on branches of the same types.", "quantifier": "every assignment and every pair of nested branches", "why_tests_cant": "unbounded nesting", "anchors": ["hwtypes/smt_bit_vector.py:SMTBit.ite", "hwtypes/bit_vector_util.py:build_ite"]}
{"id": "C39", "title": "Substitution is semantic substitution", "statement": "e.substitute((x, t), ...) evaluates under an assignment to the value of e under the assignment in which each x is replaced by the value of t (simultaneously, for variables x).", "quantifier": "every term, substitution and assignment", "why_tests_cant": "all terms", "anchors": ["hwtypes/smt_bit_vector.py:SMTBitVector.substitute", "hwtypes/smt_bit_vector.py:SMTBit.substitute"]}
{"id": "C40", "title": "Automatically named symbols are fresh", "statement": "In every history of creations (anonymous, prefixed or named) and deletions of symbolic values, an automatically named symbol gets a name not used by any live symbol and never given automatically before; explicitly reusing the name of a live symbol raises ValueError; naming a non-symbolic value raises TypeError.", "quantifier": "every history of creations and deletions with arbitrary names and prefixes", "why_tests_cant": "History-quantified; name collisions need specific user-chosen names.", "anchors": ["hwtypes/smt_bit_vector.py:_gen_name", "hwtypes/smt_bit_vector.py:SMTBit.__init__", "hwtypes/smt_bit_vector.py:SMTBitVector.__init__"]}
{"id": "C41", "title": "Symbolic integer views of vectors", "statement": "x.as_uint() / x.as_sint() of a symbolic vector evaluate to the unsigned / two's-complement value of the evaluated vector.", "quantifier": "every width >= 1, term and assignment", "why_tests_cant": "all assignments", "anchors": ["hwtypes/smt_bit_vector.py:SMTBitVector.as_uint", "hwtypes/smt_bit_vector.py:SMTBitVector.as_sint"]}
{"id": "C42", "title": "Symbolic integers behave as Python ints", "statement": "SMTInt operations (+, -, *, //, unary -, comparisons, also with ints on the left) evaluate to Python's integer operations on the evaluated operands.", "quantifier": "every pair of terms and assignment (non-zero divisors)", "why_tests_cant": "all ints, also negative divisors", "anchors": ["hwtypes/smt_int.py:SMTInt"]}
{"id": "C43", "title": "Formula constructors have Boolean semantics", "statement": "And/Or accept any iterable of formulas and bits, Implies any two, and anything else raises ValueError; to_hwtypes() of an arbitrarily nested And/Or/Implies formula evaluates to the Boolean meaning of the formula (empty And is true, empty Or is false).", "quantifier": "every nested formula and assignment", "why_tests_cant": "unbounded nesting and arity", "anchors": ["hwtypes/smt_utils.py:And", "hwtypes/smt_utils.py:Or", "hwtypes/smt_utils.py:Implies"]}
{"id": "C44", "title": "IEEE bit-pattern round trip", "statement": "For every IEEE-compliant format, reinterpret_from_bv followed by reinterpret_as_bv is the identity on every bit pattern that is not a NaN, and maps every NaN pattern to a NaN pattern; conversely every representable value survives reinterpret_as_bv then reinterpret_from_bv.", "quantifier": "every exponent size, mantissa size and bit pattern (representable values: at least two exponent bits)", "why_tests_cant": "2**size patterns for each of infinitely many formats.", "anchors": ["hwtypes/fp_vector.py:FPVector.reinterpret_as_bv", "hwtypes/fp_vector.py:FPVector.reinterpret_from_bv"]}
{"id": "C45", "title": "Bit patterns denote IEEE values", "statement": "reinterpret_from_bv yields (-1)**s * 1.m * 2**(e-bias) for normal, (-1)**s * 0.m * 2**(1-bias) for subnormal patterns, signed zeros, signed infinities and NaN, with bias 2**(eb-1)-1.", "quantifier": "every format and bit pattern", "why_tests_cant": "as above", "anchors": ["hwtypes/fp_vector.py:FPVector.reinterpret_from_bv"]}
{"id": "C46", "title": "Non-IEEE formats flush", "statement": "In a non-IEEE format, subnormal patterns decode to a zero of the same sign, NaN patterns decode to an infinity, all other patterns round-trip.", "quantifier": "every format and bit pattern", "why_tests_cant": "as above", "anchors": ["hwtypes/fp_vector.py:FPVector.reinterpret_from_bv", "hwtypes/fp_vector.py:FPVector.reinterpret_as_bv", "hwtypes/fp_vector.py:FPVector.__init__"]}
{"id": "C47", "title": "Classification predicates partition", "statement": "Exactly one of fp_is_normal, fp_is_subnormal, fp_is_zero, fp_is_infinite, fp_is_NaN holds for every representable value, and it is the one the IEEE bit pattern dictates.", "quantifier": "every format with at least two exponent bits and every representable value", "why_tests_cant": "all values", "anchors": ["hwtypes/fp_vector.py:FPVector.fp_is_normal", "hwtypes/fp_vector.py:FPVector.fp_is_subnormal"]}
{"id": "C48", "title": "Exponent range of the arithmetic context", "statement": "The working context's exponent range makes exactly the format's values representable: the largest finite value is (2 - 2**-mb) * 2**bias and the smallest positive one is 2**(1-bias-mb) for IEEE formats and 2**(1-bias) otherwise.", "quantifier": "every exponent size of at least 2 and every mantissa size", "why_tests_cant": "all formats", "anchors": ["hwtypes/fp_vector.py:FPVector.__init_subclass__"]}
{"id": "C49", "title": "Rounding modes round as named", "statement": "Each RoundingMode rounds the exact result as its name says: RNE nearest/ties-to-even, RNA nearest/ties-away, RTP up, RTN down, RTZ toward zero.", "quantifier": "every mode, format with at least two exponent bits, and exact value", "why_tests_cant": "ties and non-ties over all values", "anchors": ["hwtypes/fp_vector.py:_mode_2_gmpy2", "hwtypes/fp_vector_abc.py:RoundingMode"]}
{"id": "C50", "title": "Product/tuple values stay well-typed", "statement": "A Tuple/Product value can be constructed exactly from the right number of values of the field types (ValueError / TypeError otherwise), and in every history of item and attribute assignments each field always holds a value of its declared type; a rejected assignment changes nothing.", "quantifier": "every field list, argument list and history of assignments", "why_tests_cant": "Histories and arities are unbounded.", "anchors": ["hwtypes/adt.py:Tuple.__init__", "hwtypes/adt.py:Tuple.__setitem__", "hwtypes/adt_meta.py:AnonymousProductMeta._namespace_from_idx"]}
{"id": "C51", "title": "Product/tuple read-after-write", "statement": "After assigning field i, reading field i (by index or by name) gives the assigned value and every other field is unchanged; attribute k and index of k are the same field. A slice that is assigned a tuple with as many fields as it has positions reads back as those fields, and other positions are unchanged.", "quantifier": "every value, field and history", "why_tests_cant": "unbounded arity and histories", "anchors": ["hwtypes/adt.py:Tuple.__getitem__", "hwtypes/adt.py:Tuple.__setitem__", "hwtypes/adt_meta.py:AnonymousProductMeta._namespace_from_idx"]}
{"id": "C52", "title": "Product/tuple equality is field-wise", "statement": "Two values of one Tuple/Product type are equal iff all their fields are equal, in every reachable state (also after assignments), and equal values have equal hashes.", "quantifier": "every pair of values reachable by any history of assignments", "why_tests_cant": "Needs histories: freshly constructed values behave differently from assigned-to ones.", "anchors": ["hwtypes/adt.py:Tuple.__eq__", "hwtypes/adt.py:Tuple.__setitem__", "hwtypes/adt.py:Tuple.__hash__"]}
{"id": "C53", "title": "value_dict / from_values round trip", "statement": "T.from_values(v.value_dict) reconstructs a value equal to v, for every Tuple, Product, Sum and TaggedUnion value, and from_values rejects dictionaries with wrong keys, ill-typed values, or (Sum/TaggedUnion) other than exactly one non-None entry.", "quantifier": "every ADT type and value, every dictionary", "why_tests_cant": "all types and values", "anchors": ["hwtypes/adt.py:Tuple.from_values", "hwtypes/adt.py:Sum.from_values", "hwtypes/adt.py:Tuple.value_dict", "hwtypes/adt.py:Sum.value_dict", "hwtypes/adt.py:TaggedUnion.value_dict"]}
{"id": "C54", "title": "Sum holds exactly one alternative", "statement": "A Sum value's stored value always belongs to one of the declared types; s[T].match is true iff the stored value is an instance of T and then s[T].value returns it, otherwise .value raises TypeError; indexing with an undeclared type raises TypeError.", "quantifier": "every Sum type, value and history of assignments", "why_tests_cant": "histories", "anchors": ["hwtypes/adt.py:Sum"]}
{"id": "C55", "title": "TaggedUnion has exactly one active tag", "statement": "In every reachable state of a TaggedUnion value exactly one field matches, it is the field last assigned and its value is the last value assigned; reading any other field's value raises TypeError.", "quantifier": "every TaggedUnion type, value and history", "why_tests_cant": "histories", "anchors": ["hwtypes/adt.py:TaggedUnion", "hwtypes/adt_meta.py:TaggedUnionMeta._from_fields"]}
{"id": "C56", "title": "ADT equality is an equivalence compatible with hashing", "statement": "== on ADT values is reflexive, symmetric and transitive across Tuple/Product/Sum/TaggedUnion types, != is its negation, and equal values hash equally.", "quantifier": "every triple of ADT values", "why_tests_cant": "all triples across types", "anchors": ["hwtypes/adt.py:Tuple.__eq__", "hwtypes/adt.py:Sum.__eq__", "hwtypes/adt.py:TaggedUnion.__eq__", "hwtypes/adt.py:TaggedUnion.__hash__"]}
{"id": "C57", "title": "Enumeration is complete and well-typed", "statement": "T.enumerate() for an ADT built from enums yields exactly the values of T, each of type T, and each once when the enums' members are distinct and alternatives are disjoint; the count is the product (tuples) or the sum (sums) of the field counts.", "quantifier": "every ADT type of every depth", "why_tests_cant": "types are unbounded trees", "anchors": ["hwtypes/adt_meta.py:TupleMeta.enumerate", "hwtypes/adt_meta.py:SumMeta.enumerate", "hwtypes/adt_meta.py:TaggedUnionMeta.enumerate", "hwtypes/adt_meta.py:EnumMeta.enumerate"]}
{"id": "C58", "title": "Enum members", "statement": "Members of one Enum are equal iff their values are equal, members of different Enums are never equal, auto members are equal only to themselves, and a member cannot be reached through another member.", "quantifier": "every enum class and pair of members", "why_tests_cant": "all enums", "anchors": ["hwtypes/adt.py:Enum", "hwtypes/adt_meta.py:EnumMeta"]}
{"id": "C59", "title": "ADT classes are interned by content", "statement": "In every history, Tuple[...] is determined by the ordered fields, Sum[...] by the set of fields, Product (cached) by name and ordered named fields, TaggedUnion (cached) by name and the set of named fields: the same key returns the same class, different keys different classes; cache=False always creates a new class.", "quantifier": "every history of type constructions", "why_tests_cant": "history-quantified identity", "anchors": ["hwtypes/adt_meta.py:_GetitemSyntax._cache_handler", "hwtypes/adt_meta.py:_AttrSyntax._cache_handler", "hwtypes/adt_meta.py:_GetitemSyntax._get_idx"]}
{"id": "C60", "title": "rebind replaces exactly the occurrences", "statement": "T.rebind(A, B) yields the type obtained by replacing every occurrence of A (and, if asked, of its subtypes) in the field tree by B and nothing else; if A does not occur the result is T itself; rebinding to a type that does not occur and back gives T.", "quantifier": "every ADT type tree and every A, B", "why_tests_cant": "trees of unbounded depth", "anchors": ["hwtypes/adt_meta.py:_GetitemSyntax.rebind", "hwtypes/adt_meta.py:_AttrSyntax.rebind", "hwtypes/adt_meta.py:EnumMeta.rebind"]}
{"id": "C61", "title": "rebind_bitvector is a simultaneous replacement", "statement": "rebind_bitvector(T, B0, B1) replaces every B0-derived vector leaf by B1 of the same size throughout the tree and leaves everything else alone, independently of field order and even when one field type occurs inside another or equals another field's image.", "quantifier": "every ADT type tree and vector class pair", "why_tests_cant": "The code substitutes field by field; order effects showed up non-deterministically (test_sum_issue loops 1000 times).", "anchors": ["hwtypes/adt_util.py:rebind_bitvector"]}
{"id": "C62", "title": "Modifiers are interned, recoverable and hierarchy-preserving", "statement": "In every history, M(T) is M(T); M(T) is M'(T') only if M is M' and T is T'; get_modifier and get_unmodified recover M and T; M(T) is a subclass of T, of M, and of M(B) for every superclass B of T; types not produced by a modifier are not modified.", "quantifier": "every history of modifier creation/application over arbitrary class hierarchies", "why_tests_cant": "history- and hierarchy-quantified", "anchors": ["hwtypes/modifiers.py:_ModifierMeta.__call__", "hwtypes/modifiers.py:get_modifier", "hwtypes/modifiers.py:get_unmodified"]}
{"id": "C63", "title": "wrap/unwrap are inverse", "statement": "unwrap_modifier(wrap_modifier(T, mods)) == (T, mods) for unmodified T and duplicate-free mods, wrap_modifier(*unwrap_modifier(T)) is T for every T, and duplicate modifiers are rejected.", "quantifier": "every type and modifier list", "why_tests_cant": "unbounded stacks", "anchors": ["hwtypes/modifiers.py:wrap_modifier", "hwtypes/modifiers.py:unwrap_modifier"]}
{"id": "C64", "title": "strip_modifiers removes all modifiers and nothing else", "statement": "strip_modifiers(T) contains no modifier at any depth, is idempotent, and has the same tree shape, names and leaves as T.", "quantifier": "every ADT type tree", "why_tests_cant": "unbounded depth", "anchors": ["hwtypes/modifiers.py:strip_modifiers"]}
{"id": "C65", "title": "push_modifiers moves modifiers to the leaves", "statement": "push_modifiers(T) has no modifier on an internal node, every leaf carries exactly the modifiers found on the path from the root to it (innermost first), and stripping it equals stripping T.", "quantifier": "every ADT type tree", "why_tests_cant": "unbounded depth", "anchors": ["hwtypes/modifiers.py:push_modifiers"]}
{"id": "C66", "title": "Visitors reach every leaf once in order", "statement": "ADTVisitor.visit(T) calls the leaf handler exactly once per leaf of T, left to right, and dispatches each node to the handler of its own kind; ADTInstVisitor visits exactly the present components of a value.", "quantifier": "every ADT type tree / value", "why_tests_cant": "unbounded trees", "anchors": ["hwtypes/adt_util.py:ADTVisitor", "hwtypes/adt_util.py:ADTInstVisitor", "hwtypes/adt_util.py:_ADTVisitor.visit"]}
{"id": "C67", "title": "Frozen dictionaries", "statement": "FrozenDict equality is key/value equality and equal FrozenDicts hash equally; OrderedFrozenDict equality and hash additionally depend on order; mixing the two kinds (or plain dicts) keeps the contract 'equal objects have equal hashes'.", "quantifier": "every pair of dictionaries", "why_tests_cant": "all pairs", "anchors": ["hwtypes/util.py:FrozenDict", "hwtypes/util.py:OrderedFrozenDict"]}
{"id": "C68", "title": "Reserved names cannot become fields", "statement": "No Product, TaggedUnion or Enum can be created, by class syntax or from_fields, with a field whose name the type machinery reserves: ReservedNameError is raised.", "quantifier": "every field dictionary", "why_tests_cant": "all names and dictionaries", "anchors": ["hwtypes/adt_meta.py:_AttrSyntax.__new__", "hwtypes/adt_meta.py:_AttrSyntax.from_fields"]}
{"id": "C69", "title": "Equality does not depend on operand order", "statement": "For any two of: vectors of any classes and widths, Bits, ints, bools and arbitrary objects (at least one of them a vector or a Bit), a == b and b == a have the same outcome (value or exception), and likewise !=.", "quantifier": "every ordered pair of operands", "why_tests_cant": "all pairs of values and classes, including reflected dispatch", "anchors": ["hwtypes/bit_vector.py:BitVector.__eq__", "hwtypes/bit_vector.py:Bit.__eq__", "hwtypes/bit_vector.py:bit_cast"]}
{"id": "C70", "title": "Operations leave their operands alone and return new objects", "statement": "No operation other than item assignment changes any existing vector, and the vector an operation returns is a new object: a later item assignment to one vector never changes another one.", "quantifier": "every client program over registers holding vectors, Bits and ints", "why_tests_cant": "unbounded programs; aliasing only shows after later assignments", "anchors": ["hwtypes/bit_vector.py:BitVector.__setitem__", "hwtypes/bit_vector.py:BitVector.bvurem", "hwtypes/bit_vector.py:BitVector.bvsrem"]}
{"id": "C71", "title": "Only ints are accepted as vector sizes", "statement": "T[x] with an x that is not an int (for example 8.0) raises TypeError, whatever classes have been created before.", "quantifier": "every history of class creation/binding operations and every non-int index", "why_tests_cant": "the outcome depends on the history of the class cache", "anchors": ["hwtypes/bit_vector_abc.py:AbstractBitVectorMeta.__getitem__"]}
{"id": "C72", "title": "Symbolic and concrete vectors accept the same arguments", "statement": "A vector operation or constructor of the common interface that returns a value on BitVector operands also returns a value on SMTBitVector operands of the same widths (and vice versa), so code written for one family runs on the other.", "quantifier": "every operation, width and argument", "why_tests_cant": "the two implementations check arguments independently; the repo tests exercise each family separately", "anchors": ["hwtypes/smt_bit_vector.py:SMTBitVector.__init__", "hwtypes/smt_bit_vector.py:SMTBitVector.__getitem__", "hwtypes/smt_bit_vector.py:SMTBitVector.sext", "hwtypes/smt_bit_vector.py:SMTBitVector.repeat", "hwtypes/smt_bit_vector.py:SMTBitVector.bvrol", "hwtypes/smt_bit_vector.py:SMTBitVector.as_sint"]}
{"id": "C73", "title": "Symbolic rotation denotes concrete rotation", "statement": "x.bvrol(k) and x.bvror(k) on SMTBitVector evaluate, for every assignment, to BitVector's rotation of the evaluated operands, for int and for vector amounts.", "quantifier": "every width, term, amount and assignment", "why_tests_cant": "all amounts and assignments", "anchors": ["hwtypes/smt_bit_vector.py:SMTBitVector.bvrol", "hwtypes/smt_bit_vector.py:SMTBitVector.bvror"]}
{"id": "C74", "title": "Symbolic bit operators denote Bit's", "statement": "The SMTBit operators ==, !=, &, |, ^, ~ between symbolic bits and with bools, 0/1 ints and other objects on either side evaluate, for every assignment, to the Bit operators on the evaluated operands, and raise exactly when those raise.", "quantifier": "every operator, operand pair, operand order and assignment", "why_tests_cant": "all terms and assignments, reflected dispatch", "anchors": ["hwtypes/smt_bit_vector.py:SMTBit", "hwtypes/smt_bit_vector.py:bit_cast"]}
{"id": "C75", "title": "Symbolic operator expressions denote the concrete operator expressions", "statement": "Every binary arithmetic, bitwise, shift and comparison operator between a symbolic vector and an int, Bit, sequence or symbolic vector, in either order and for each of the four predefined classes, evaluates for every assignment to the concrete operator expression on the evaluated operands (value, class and exception), signed // and % excepted.", "quantifier": "every operator, class pair, operand order and assignment", "why_tests_cant": "all terms and assignments, reflected dispatch and class priority", "anchors": ["hwtypes/smt_bit_vector.py:dispatch_oper", "hwtypes/smt_bit_vector.py:dispatch_roper", "hwtypes/smt_bit_vector.py:SMTBitVector", "hwtypes/smt_bit_vector.py:SMTSIntVector"]}
{"id": "C76", "title": "A new automatic symbol is a new variable", "statement": "The variable behind a newly created anonymous or prefixed symbolic value occurs in no term that already exists, so constraints on old values never constrain the new one.", "quantifier": "every history of creations (anonymous, prefixed, named) and deletions", "why_tests_cant": "needs a name that outlives its object inside terms; history-quantified", "anchors": ["hwtypes/smt_bit_vector.py:_gen_name", "hwtypes/smt_bit_vector.py:SMTBitVector.__init__"]}
{"id": "C77", "title": "Floating-point + - * / are correctly rounded", "statement": "For finite operands of one format FPVector's +, -, *, / return the exact result rounded once in the format's rounding mode (as the mode's IEEE 754 name says); for infinite, NaN and zero operands they return what IEEE 754's table of special values says (an infinity in place of NaN in a non-IEEE format); they never raise.", "quantifier": "every format with at least 2 exponent bits, every pair of objects, every operation", "why_tests_cant": "all formats and operand pairs; the repo tests sample", "anchors": ["hwtypes/fp_vector.py:FPVector.fp_add", "hwtypes/fp_vector.py:FPVector.fp_sub", "hwtypes/fp_vector.py:FPVector.fp_mul", "hwtypes/fp_vector.py:FPVector.fp_div", "hwtypes/fp_vector.py:set_context"]}
{"id": "C78", "title": "Fused multiply-add rounds once", "statement": "x.fp_fma(y, z) is the exact x*y+z rounded once, equal to constructing the object from the exact number; special operands follow IEEE 754.", "quantifier": "every format with at least 2 exponent bits and every three objects", "why_tests_cant": "all formats and operand triples; double rounding shows on rare operands only", "anchors": ["hwtypes/fp_vector.py:FPVector.fp_fma"]}
{"id": "C79", "title": "Floating-point identities", "statement": "x+y and y+x, x*y and y*x are the same value; x-y is x+(-y); x*1 and x/1 are x; x+0 is x except that -0 becomes +0 outside RTN; x-x is +0 (-0 in RTN) for finite x.", "quantifier": "every format with at least 2 exponent bits and all objects", "why_tests_cant": "all formats and operands", "anchors": ["hwtypes/fp_vector.py:FPVector.fp_add", "hwtypes/fp_vector.py:FPVector.fp_sub", "hwtypes/fp_vector.py:FPVector.fp_mul", "hwtypes/fp_vector.py:FPVector.fp_div", "hwtypes/fp_vector.py:FPVector.fp_neg"]}
{"id": "C80", "title": "Rounding is monotone", "statement": "If x <= x' then FPVector(x) <= FPVector(x'), and if the exact result of one operation is not above that of another, so are the returned values, in every rounding mode.", "quantifier": "every format with at least 2 exponent bits, all numbers and operands", "why_tests_cant": "needs all pairs of numbers", "anchors": ["hwtypes/fp_vector.py:FPVector.__init__", "hwtypes/fp_vector.py:set_context"]}
{"id": "C81", "title": "Floating-point comparisons order the extended number line", "statement": "<, <=, >, >=, ==, != between FPVectors of one format compare the numbers they denote (with the infinities; +0 equals -0); with a NaN all are False but !=; otherwise exactly one of <, ==, > holds, <= is not >, >= is not <.", "quantifier": "every format and every pair of objects", "why_tests_cant": "all pairs of values", "anchors": ["hwtypes/fp_vector.py:FPVector.fp_lt", "hwtypes/fp_vector.py:FPVector.fp_leq", "hwtypes/fp_vector.py:FPVector.fp_eq", "hwtypes/fp_vector.py:FPVector.__ne__"]}
{"id": "C82", "title": "Floating-point sign operations act on the sign bit", "statement": "fp_neg inverts the sign bit of the encoding and nothing else; fp_abs clears it; fp_is_negative and fp_is_positive report it for every value that is not a NaN.", "quantifier": "every format and object", "why_tests_cant": "all objects, including zeros and NaNs", "anchors": ["hwtypes/fp_vector.py:FPVector.fp_neg", "hwtypes/fp_vector.py:FPVector.fp_abs", "hwtypes/fp_vector.py:FPVector.fp_is_negative", "hwtypes/fp_vector.py:FPVector.fp_is_positive"]}
{"id": "C83", "title": "Conversion of floats to vectors truncates", "statement": "to_ubv(n) and to_sbv(n) of a finite value give its integer part (toward zero, in every rounding mode) modulo 2^n as BitVector[n] and SIntVector[n]; infinities and NaNs raise; an integer the format and the width can hold comes back.", "quantifier": "every object, width and integer", "why_tests_cant": "unbounded domain", "anchors": ["hwtypes/fp_vector.py:FPVector.to_ubv", "hwtypes/fp_vector.py:FPVector.to_sbv"]}
{"id": "C84", "title": "Floating-point operands are never converted silently between formats", "statement": "An FPVector operand of another size, mode or compliance makes every operation and comparison raise TypeError; any other operand is first converted by the left operand's constructor, and what that raises is raised; the constructor itself rounds an object of another format and leaves one of its own unchanged.", "quantifier": "every pair of formats, every operation, every operand", "why_tests_cant": "all pairs of formats", "anchors": ["hwtypes/fp_vector.py:fp_cast", "hwtypes/fp_vector.py:FPVector.__init__"]}
{"id": "C85", "title": "Floating-point minimum and maximum", "statement": "fp_min and fp_max of two numbers return the two operands, in order; a NaN gives way to a number; fp_min(+0,-0) is -0 and fp_max(+0,-0) is +0 in either order.", "quantifier": "every format with at least 2 exponent bits and every pair of objects", "why_tests_cant": "all pairs, special values", "anchors": ["hwtypes/fp_vector.py:FPVector.fp_min", "hwtypes/fp_vector.py:FPVector.fp_max"]}
{"id": "C86", "title": "Floating-point remainder is exact", "statement": "x % y (fp_rem) is x - n*y for the integer n nearest to x/y, the even one if two are; in an IEEE format this is a number of the format and no rounding takes place, whatever the mode; a zero remainder has the sign of x; x % inf is x; inf % y and x % 0 are NaN.", "quantifier": "every format with at least 2 exponent bits and every pair of objects", "why_tests_cant": "quotients of any size; exactness is a theorem about all pairs", "anchors": ["hwtypes/fp_vector.py:FPVector.fp_rem", "hwtypes/fp_vector.py:FPVector.__mod__"]}
{"id": "C87", "title": "Rounding to an integral value", "statement": "fp_round_to_integral returns the integer the format's rounding mode selects, as a value of the format (exactly, unless it is beyond the range); zeros keep their sign.", "quantifier": "every format with at least 2 exponent bits and every finite object", "why_tests_cant": "all formats, modes and values", "anchors": ["hwtypes/fp_vector.py:FPVector.fp_round_to_integral"]}
{"id": "C88", "title": "rebind_keep_modifiers replaces under modifiers", "statement": "rebind_keep_modifiers(T, A, B) replaces every class deriving from A in the field tree of T by B, leaving the modifiers around it, and changes nothing else.", "quantifier": "every ADT type of every depth, every A and B", "why_tests_cant": "all type trees; the bug needs a field type that occurs inside a sibling", "anchors": ["hwtypes/adt_util.py:rebind_keep_modifiers"]}
{"id": "C89", "title": "rebind_type moves a type to a family", "statement": "rebind_type(T, family) replaces every vector class in T by the family's BitVector of the same size and every Bit by the family's Bit, keeps modifiers, and returns types it cannot rebind unchanged.", "quantifier": "every type of every depth and every family", "why_tests_cant": "all type trees; modified types are not tested", "anchors": ["hwtypes/adt_util.py:rebind_type"]}
{"id": "C90", "title": "Bound ADT classes sit where their fields say", "statement": "A Product with fields a: A, b: B is a subclass of AnonymousProduct[{a: A, b: B}], which is a subclass of Tuple[A, B]; a TaggedUnion with these fields is a subclass of Sum[A, B]; S[...] is a subclass of T[...] for unbound S below T of the same kind; a subclass of a bound class has the same fields; a class derived without fields of its own is made exactly if its bound bases agree, and its unbound_t is itself if it is unbound, else its only unbound base; an Enum class with members is made exactly if it has one enum base and its bound bases agree.", "quantifier": "every class in every history of class statements, [...], from_fields, modifiers and collections", "why_tests_cant": "history- and hierarchy-quantified; base classes are made recursively and taken from a weak cache", "anchors": ["hwtypes/adt_meta.py:_GetitemSyntax._cache_handler", "hwtypes/adt_meta.py:ProductMeta._from_fields", "hwtypes/adt_meta.py:TaggedUnionMeta._from_fields", "hwtypes/adt_meta.py:BoundMeta._info_from_bases"]}
{"id": "C91", "title": "Product constructors take every field name", "statement": "A Product can be declared with any distinct identifiers as field names that are not reserved, and P(v1, ..., k=vk, ...) with the trailing values by keyword in any order builds the value with the fields in declaration order.", "quantifier": "every list of field names and every split of the values into positional and keyword arguments", "why_tests_cant": "the constructor is generated as source text from the names; tests use a handful of names", "anchors": ["hwtypes/adt_meta.py:AnonymousProductMeta._from_idx"]}
{"id": "C92", "title": "z3 methods compute what the concrete methods compute", "statement": "For every assignment of the z3 constants, each bitvector method of z3BitVector except bvsdiv (logic, shifts, rotations, arithmetic, unsigned division, remainders, all comparisons) applied to values denoting concrete operands returns a value denoting what the concrete method of the same name returns, or both raise.", "quantifier": "every class, width >= 1, every pair of z3 expressions, every assignment", "why_tests_cant": "quantifies over all expressions and assignments; the z3 tests compare a few constants", "anchors": ["hwtypes/z3_bit_vector.py:z3BitVector.bvand", "hwtypes/z3_bit_vector.py:z3BitVector.bvadd", "hwtypes/z3_bit_vector.py:z3BitVector.bvsrem", "hwtypes/z3_bit_vector.py:z3BitVector.bvrol", "hwtypes/z3_bit_vector.py:z3BitVector.bvslt", "hwtypes/z3_bit_vector.py:z3BitVector.__init__"]}
{"id": "C93", "title": "z3 signed division fits its remainder", "statement": "z3SIntVector // agrees with SIntVector //, and (x // y) * y + x % y is x for every nonzero y.", "quantifier": "every width, all operands, all assignments", "why_tests_cant": "needs all pairs of signed operands; the mismatch shows only when signs differ and the division is inexact", "anchors": ["hwtypes/z3_bit_vector.py:z3BitVector.bvsdiv", "hwtypes/z3_bit_vector.py:z3BitVector.bvsrem", "hwtypes/z3_bit_vector.py:z3SIntVector.__floordiv__", "hwtypes/z3_bit_vector.py:z3SIntVector.__mod__"]}
{"id": "C94", "title": "z3 structural operations agree with the concrete ones", "statement": "Construction, indexing, slicing, item assignment, concat, zext, sext, repeat and adc of z3BitVector denote, under every assignment, the results of the concrete family, including the exceptions.", "quantifier": "every class, width, index, slice, amount, operand and assignment", "why_tests_cant": "unbounded parameters times all assignments", "anchors": ["hwtypes/z3_bit_vector.py:z3BitVector.__init__", "hwtypes/z3_bit_vector.py:z3BitVector.__getitem__", "hwtypes/z3_bit_vector.py:z3BitVector.__setitem__", "hwtypes/z3_bit_vector.py:z3BitVector.concat", "hwtypes/z3_bit_vector.py:z3BitVector.repeat", "hwtypes/z3_bit_vector.py:z3BitVector.sext", "hwtypes/z3_bit_vector.py:z3BitVector.adc"]}
{"id": "C95", "title": "z3 operators agree with the concrete operators", "statement": "For every assignment, x op y for z3 vectors and bits, plain ints, bools and sequences of bits on either side denotes what the concrete operators give for the denoted operands, including which class the result has and which calls raise.", "quantifier": "every operator, every pair of operands and classes, every assignment", "why_tests_cant": "operands times classes times assignments; operator dispatch also depends on the order of the operands", "anchors": ["hwtypes/z3_bit_vector.py:z3BitVector.__add__", "hwtypes/z3_bit_vector.py:z3BitVector.__rshift__", "hwtypes/z3_bit_vector.py:z3BitVector.__eq__", "hwtypes/z3_bit_vector.py:z3SIntVector.__lt__", "hwtypes/z3_bit_vector.py:z3Bit.__and__"]}
{"id": "C96", "title": "z3 ite selects a branch", "statement": "c.ite(t, f) denotes t when c denotes true and f otherwise, as an object of the kind the concrete ite returns.", "quantifier": "every condition, every pair of branches, every assignment", "why_tests_cant": "all pairs of branch types and all assignments", "anchors": ["hwtypes/z3_bit_vector.py:z3Bit.ite", "hwtypes/z3_bit_vector.py:z3BitVector.ite"]}
{"id": "C97", "title": "Live symbolic z3 values are independent", "statement": "In every history of constructor calls and deaths of objects, no two live symbolic z3 values have the same name, so any values can be assigned to them at once; automatic names are never repeated and never that of a live value; the name of a live value is refused, any other granted.", "quantifier": "every history of constructor calls and object deaths", "why_tests_cant": "history-quantified and dependent on garbage collection; the tables are global", "anchors": ["hwtypes/z3_bit_vector.py:_gen_name", "hwtypes/z3_bit_vector.py:_name_table", "hwtypes/z3_bit_vector.py:z3Bit.__init__", "hwtypes/z3_bit_vector.py:z3BitVector.__init__"]}
{"id": "C98", "title": "A new symbolic z3 value is a new constant", "statement": "A symbolic z3 value made without a name is a constant that no expression made earlier mentions.", "quantifier": "every history", "why_tests_cant": "needs an earlier object to have been collected", "anchors": ["hwtypes/z3_bit_vector.py:_gen_name", "hwtypes/z3_bit_vector.py:z3BitVector.__init__"]}
{"id": "C99", "title": "Symbolic floating-point methods can be read as the concrete ones", "statement": "There is one interpretation of all function symbols of all classes SMTFPVector[eb, mb, mode, ieee] under which every method call that returns denotes what the FPVector method of the same name returns for the denoted operands (NaN signs apart), and to_ubv(n) what FPVector.to_ubv(n) returns.", "quantifier": "every format with at least 2 exponent bits, every method, all operands, any assignment of the variables", "why_tests_cant": "a statement about the existence of an interpretation for all formats and values at once; no solver run can show it", "anchors": ["hwtypes/smt_fp_vector.py:SMTFPVector.__init_subclass__", "hwtypes/smt_fp_vector.py:SMTFPVector._fp_method", "hwtypes/smt_fp_vector.py:SMTFPVector._bit_method", "hwtypes/smt_fp_vector.py:SMTFPVector.to_ubv"]}
{"id": "C100", "title": "What a solver proves about symbolic floats holds of concrete floats", "statement": "If a formula built from SMTFPVector methods, comparisons and ~ & | over named variables is valid, the same formula evaluates to true in FPVector for all values of the variables.", "quantifier": "every formula, every format with at least 2 exponent bits, all values", "why_tests_cant": "quantifies over formulas and all concrete values", "anchors": ["hwtypes/smt_fp_vector.py:SMTFPVector.fp_add", "hwtypes/smt_fp_vector.py:SMTFPVector.fp_lt", "hwtypes/smt_fp_vector.py:SMTFPVector.__init__"]}
{"id": "C101", "title": "Every symbolic floating-point method can be called", "statement": "Each method of SMTFPVector applied to operands of its class returns a vector of the class or a bit; to_ubv and to_sbv return vectors of the size asked for.", "quantifier": "every class, every method, all operands", "why_tests_cant": "the symbols are declared from a table far from the calls; methods without a test are never called", "anchors": ["hwtypes/smt_fp_vector.py:_SIGS", "hwtypes/smt_fp_vector.py:SMTFPVector.fp_min", "hwtypes/smt_fp_vector.py:SMTFPVector.fp_max", "hwtypes/smt_fp_vector.py:SMTFPVector.to_sbv", "hwtypes/smt_fp_vector.py:SMTFPVector.to_ubv"]}
{"id": "C102", "title": "Symbolic floating-point operators are related as the concrete ones", "statement": "x != y is the negation of x == y; equal operands give equal results; and the relations between the concrete operators hold in every interpretation: x < y iff y > x, x < y implies x <= y, x == y iff y == x, x + y is y + x.", "quantifier": "every class, all operands, every interpretation", "why_tests_cant": "quantifies over all interpretations of the function symbols", "anchors": ["hwtypes/smt_fp_vector.py:SMTFPVector._bit_method", "hwtypes/smt_fp_vector.py:SMTFPVector.__ne__", "hwtypes/smt_fp_vector.py:SMTFPVector.fp_lt", "hwtypes/smt_fp_vector.py:SMTFPVector.fp_gt"]}
{"id": "C103", "title": "Symbolic floating-point operands of another type are refused", "statement": "A method of SMTFPVector raises TypeError for a vector of another format, as FPVector does, and for other objects.", "quantifier": "every pair of formats, every binary method", "why_tests_cant": "all pairs of formats; the interesting ones have the same width", "anchors": ["hwtypes/smt_fp_vector.py:SMTFPVector._fp_method", "hwtypes/smt_fp_vector.py:SMTFPVector._bit_method", "hwtypes/fp_vector.py:_coerce"]}
{"id": "C104", "title": "Symbolic floating-point vectors made from integers", "statement": "SMTFPVector[..](n) is the vector with bit pattern n, n out of range raises ValueError; it stands for the value FPVector[..](n).", "quantifier": "every class and integer", "why_tests_cant": "all integers and formats", "anchors": ["hwtypes/smt_fp_vector.py:SMTFPVector.__init__", "hwtypes/fp_vector.py:FPVector.__init__"]}
{"id": "C105", "title": "Symbolic floating-point classes can be declared in any order", "statement": "Any sequence of class statements below bound SMTFPVector classes and of SMTFPVector[...] succeeds, unless two classes of one name have different widths; the classes SMTFPVector[...] never conflict; an unbound subclass cannot be declared.", "quantifier": "every sequence of class statements", "why_tests_cant": "history-quantified: the symbol table of pysmt is global and symbols are named by class name", "anchors": ["hwtypes/smt_fp_vector.py:SMTFPVector.__init_subclass__", "hwtypes/fp_vector_abc.py:AbstractFPVectorMeta.__getitem__"]}
{"id": "C106", "title": "Symbolic floats and bit vectors convert without loss", "statement": "reinterpret_as_bv and reinterpret_from_bv of SMTFPVector are inverse to each other on all patterns, NaN payloads included; a vector of another width raises TypeError.", "quantifier": "every class and every term", "why_tests_cant": "all terms and widths", "anchors": ["hwtypes/smt_fp_vector.py:SMTFPVector.reinterpret_as_bv", "hwtypes/smt_fp_vector.py:SMTFPVector.reinterpret_from_bv"]}
{"id": "C107", "title": "Square roots are correctly rounded", "statement": "fp_sqrt of a positive number is the real square root rounded once in the format's rounding mode; it is exact on squares, never overflows, and is monotone; sqrt(-0) is -0, sqrt(+inf) is +inf, negative numbers and NaN give NaN (an infinity in formats without NaN).", "quantifier": "every format with at least 2 exponent bits, every rounding mode, every value", "why_tests_cant": "all values of all formats against an irrational exact result", "anchors": ["hwtypes/fp_vector.py:FPVector.fp_sqrt"]}
{"id": "C108", "title": "Live symbolic floats are independent variables", "statement": "An SMTFPVector made without a name is a variable that no value made before mentions; an explicit name that a live symbolic float already has raises ValueError; all live symbolic values (floats, vectors, bits) are different variables.", "quantifier": "every history of constructor calls of both modules and deaths", "why_tests_cant": "history-quantified over two weak tables, pysmt's permanent symbol table and its counter", "anchors": ["hwtypes/smt_fp_vector.py:SMTFPVector.__init__", "hwtypes/smt_fp_vector.py:_name_table"]}
{"id": "C109", "title": "Floating-point classes are interned", "statement": "T[eb, mb, mode, ieee] succeeds on every unbound class for positive sizes, has that binding and T as unbound_t, and while the class is alive every further T[...] with that index returns the same object; different indices or classes give different classes. Binding a bound class raises TypeError, sizes that are not positive ValueError, indices of other types IndexError.", "quantifier": "every history of class statements, bindings and collections", "why_tests_cant": "identity over arbitrary histories with a weak cache and garbage collection", "anchors": ["hwtypes/fp_vector_abc.py:AbstractFPVectorMeta.__getitem__", "hwtypes/fp_vector_abc.py:AbstractFPVectorMeta.unbound_t"]}
{"id": "C110", "title": "Floating-point formats follow the class hierarchy and never mix", "statement": "If S derives from T then S[i] derives from T[i], from S and from T; a class deriving from a bound class has its binding, so no floating-point type is a subtype of one of another format, rounding mode or compliance; a class statement with bases of two bindings raises TypeError.", "quantifier": "every history of class statements, bindings and collections", "why_tests_cant": "quantifies over all class hierarchies", "anchors": ["hwtypes/fp_vector_abc.py:AbstractFPVectorMeta.__new__", "hwtypes/fp_vector_abc.py:AbstractFPVectorMeta.__getitem__"]}
{"id": "C111", "title": "Random floats are normal numbers", "statement": "FPVector.random returns a normal number or, if allow_inf, an infinity; never NaN, zero or a subnormal; with allow_inf=False never an infinity; every normal number can be returned.", "quantifier": "every format, rounding mode and result of the random number generators", "why_tests_cant": "quantifies over all draws and formats; the failing draws are rare (the largest mantissa with the largest exponent)", "anchors": ["hwtypes/fp_vector.py:FPVector.random"]}
{"id": "C112", "title": "Printed formulas are unambiguous", "statement": "FormulaConstructor.serialize determines the formula: formulas built from And, Or, Implies and bits that print alike are equal, no printed formula continues another, and every line after the first starts with the line prefix.", "quantifier": "every nesting of And, Or, Implies, every indentation and prefix without newlines", "why_tests_cant": "injectivity over all nested formulas", "anchors": ["hwtypes/smt_utils.py:_op_to_str", "hwtypes/smt_utils.py:And", "hwtypes/smt_utils.py:Or", "hwtypes/smt_utils.py:Implies"]}
{"id": "C113", "title": "random draws every vector with equal probability", "statement": "T.random(w) is a vector of class T[w], and every vector of that class is the result of exactly one of the numbers randint may draw; the number drawn is the signed value for SIntVector. Negative widths raise ValueError. Bit.random draws each bit.", "quantifier": "every width and every number drawn", "why_tests_cant": "uniformity is a statement about all draws at all widths", "anchors": ["hwtypes/bit_vector.py:BitVector.random", "hwtypes/bit_vector.py:SIntVector.random", "hwtypes/bit_vector.py:Bit.random"]}
{"id": "C114", "title": "make_constant agrees in all families", "statement": "make_constant(v, n) on a class or an instance is the constant v of the unsized class at width n, n defaulting to the width of the receiver; the pysmt and z3 families give a term denoting the concrete result.", "quantifier": "every value, width, class and receiver", "why_tests_cant": "all widths, values and three families", "anchors": ["hwtypes/bit_vector.py:BitVector.make_constant", "hwtypes/smt_bit_vector.py:SMTBitVector.make_constant", "hwtypes/z3_bit_vector.py:z3BitVector.make_constant", "hwtypes/bit_vector_abc.py:AbstractBitVector.make_constant"]}
{"id": "C115", "title": "Operators of polymorphic symbolic vectors follow the symbolic condition", "statement": "After r = c.ite(t, f) with a symbolic condition c and vectors t, f of different classes, r op k is one term that under every assignment has the value of t op k where c holds and of f op k where it does not, also after nesting; the same for comparisons and ext. Vectors of different widths and operands of other types raise as for plain vectors. The class of r derives from exactly the predefined classes that the classes of t and f derive from.", "quantifier": "every nesting of conditional classes, every operator, operand and assignment", "why_tests_cant": "quantifies over all assignments of the symbols and all nested conditional classes", "anchors": ["hwtypes/bit_vector_util.py:VCall", "hwtypes/bit_vector_util.py:PolyType", "hwtypes/bit_vector_util.py:build_ite", "hwtypes/smt_bit_vector.py:SMTBit.ite", "hwtypes/smt_bit_vector.py:SMTBitVector.ext", "hwtypes/smt_bit_vector.py:SMTSIntVector.ext"]}
{"id": "C116", "title": "Modifiers made by name are interned", "statement": "make_modifier(name, cache=True) returns the same modifier for the same name while the program holds it or any type it made, so make_modifier(name, cache=True)(T) is one type; without cache every call returns a modifier no other call returns; modifiers of different names, or made without cache, never make the same type.", "quantifier": "every history of make_modifier, modifier applications, class statements and collections", "why_tests_cant": "identity over all histories, with a weak table and modifiers kept alive only by the types they made", "anchors": ["hwtypes/modifiers.py:make_modifier", "hwtypes/modifiers.py:AbstractModifier._register_modified"]}
{"id": "C117", "title": "new returns a new type every time", "statement": "new(T) derives from T; new(T, bind) is bound as T[bind] is, derives from T[bind], and its unbound class is new and derives from T; two calls, at any times, never return the same type, nor one that existed before.", "quantifier": "every history of class statements, bindings and collections, every class and binding", "why_tests_cant": "freshness and subtyping over all histories with caches", "anchors": ["hwtypes/modifiers.py:new"]}
{"id": "C118", "title": "Typed properties behave as properties with a type check", "statement": "A class body that uses TypedProperty(T) and its getter, setter and deleter declares what it would with property; no decorator changes a property declared before; reading the attribute of the class gives T; assigning to an instance calls the last setter only for instances of T, otherwise raises TypeError; a missing getter, setter or deleter raises AttributeError.", "quantifier": "every class body, in any order of decorators and across names", "why_tests_cant": "quantifies over all sequences of decorators with mutable property objects", "anchors": ["hwtypes/util.py:TypedProperty"]}
{"id": "C119", "title": "Constructing a float from a number rounds it once", "statement": "FPVector[eb, mb, mode, ieee](x) is the value of x rounded once in the class's rounding mode, whether x is an int, float, mpz or mpq, a decimal string, a string 'p/q', a bit vector, or any other object with __float__ (Fraction, Decimal, numpy integers); x beyond the range overflows as the mode says.", "quantifier": "every rational value, every way to write it, every format and mode", "why_tests_cant": "double rounding shows only for values within 2^-53 of a midpoint or a bound", "anchors": ["hwtypes/fp_vector.py:FPVector.__init__"]}
{"id": "C120", "title": "float of a floating-point vector round-trips", "statement": "float(x) of a vector whose format fits in binary64 (eb <= 11, mb <= 52) is its exact value, infinities and signed zeros included, and T(float(x)) is x bit for bit; from larger formats float(x) is the value rounded once in the mode of the class.", "quantifier": "every format, mode and value", "why_tests_cant": "all formats and all bit patterns, including subnormals", "anchors": ["hwtypes/fp_vector.py:FPVector.__float__", "hwtypes/fp_vector.py:FPVector.__init__"]}
{"id": "C121", "title": "Floating-point methods do not depend on gmpy2's context", "statement": "Every method of FPVector gives the same answer or exception whatever gmpy2 context the program has made current (precision, exponent range, rounding mode, flags), and leaves that context and its flags as they were, also when it raises; so does a whole program mixing such calls with context changes.", "quantifier": "every method, argument and ambient context; every sequence of calls and context changes", "why_tests_cant": "tests run in the default context; a missing decorator shows only in another one", "anchors": ["hwtypes/fp_vector.py:set_context", "hwtypes/fp_vector.py:FPVector"]}
{"id": "C122", "title": "Printed ADT values tell values apart", "statement": "Two values of one ADT class over Bit and bit vectors have the same repr (or str) only if they hold the same values in the same fields, and then they are equal; the repr of a bit vector also determines its class and width.", "quantifier": "every class built from Tuple, Product, AnonymousProduct, Sum, TaggedUnion, Enum, modifiers, Bit and vectors; every pair of values", "why_tests_cant": "a collision is between two particular values of a nested type", "anchors": ["hwtypes/adt.py:Tuple.__repr__", "hwtypes/adt.py:AnonymousProduct.__repr__", "hwtypes/adt.py:Sum.__repr__", "hwtypes/adt.py:TaggedUnion.__repr__", "hwtypes/adt.py:Enum.__repr__", "hwtypes/bit_vector.py:BitVector.__repr__", "hwtypes/bit_vector.py:BitVector.__str__"]}
{"id": "C123", "title": "A circuit means the same under simulation and under both solvers", "statement": "Take code written once over the methods all families share (constants, bvnot to bvcomp, comparisons, rotations, extensions, slices, indexing, concat, adc, bit operators, ite; the operators + to >= with a vector on the left and a vector of the same class, a bit or an int on the right; no signed division) and run it with BitVector, SMTBitVector and z3BitVector. A solver proves an output bit of the symbolic run exactly when simulation gives true for all inputs; so both solvers give the same verdict, and a counterexample of the solver, fed to the simulation, gives the output the solver reported. Both symbolic runs raise exactly when the simulation raises.", "quantifier": "every straight-line function of those methods, of any length; every list of differently named inputs of positive widths; every output", "why_tests_cant": "the number of functions and inputs is unbounded, and a test compares one function at a few inputs", "anchors": ["hwtypes/bit_vector_abc.py:AbstractBitVector", "hwtypes/bit_vector_abc.py:AbstractBit", "hwtypes/bit_vector.py:BitVector", "hwtypes/smt_bit_vector.py:SMTBitVector", "hwtypes/z3_bit_vector.py:z3BitVector"]}
{"id": "C124", "title": "A circuit that assigns to bits means the same under simulation and under both solvers", "statement": "Code as in C123 that moreover assigns to bits (x[i] = v) and gives objects further names (y = x) means the same when run with BitVector, SMTBitVector and z3BitVector: an assignment is seen under every name of the object and under no other, and a solver proves an output exactly when the simulation gives true for all inputs.", "quantifier": "every straight-line function of the shared methods, assignments and renamings; every list of differently named inputs of positive widths; every output", "why_tests_cant": "the functions, the alias structures and the inputs are unbounded", "anchors": ["hwtypes/bit_vector.py:BitVector.__setitem__", "hwtypes/bit_vector.py:BitVector.bvurem", "hwtypes/smt_bit_vector.py:SMTBitVector.__setitem__", "hwtypes/z3_bit_vector.py:z3BitVector.__setitem__"]}
{"id": "C125", "title": "Dictionaries with vectors as keys are maps on values", "statement": "In any program, a dict whose keys are vectors behaves as a map from values: d[x] finds what was last stored under a vector of the same class, width and value, however either was computed, del removes exactly that, and a KeyError says that nothing is stored.", "quantifier": "every program of vector operations, item assignments and dictionary operations; every hash function of strings", "why_tests_cant": "programs, values and hash seeds are unbounded; python picks another hash function on every start", "anchors": ["hwtypes/bit_vector.py:BitVector.__hash__", "hwtypes/bit_vector.py:BitVector.__eq__", "hwtypes/bit_vector.py:BitVector.__setitem__"]}
{"id": "C126", "title": "Truncation is announced", "statement": "When a vector is constructed from another vector, a bit, a sequence or a number-like object and no 'Truncating value' warning is given, it holds the number of that object; the same for operands that methods convert; and the three families warn alike.", "quantifier": "every class, width and argument", "why_tests_cant": "all widths and values, and code relies on the absence of the warning", "anchors": ["hwtypes/bit_vector.py:BitVector.__init__", "hwtypes/smt_bit_vector.py:SMTBitVector.__init__", "hwtypes/z3_bit_vector.py:z3BitVector.__init__"]}
{"id": "C127", "title": "Flushing of floating-point patterns is announced", "statement": "reinterpret_from_bv gives a pattern the value IEEE 754 assigns to it exactly when it gives no warning; the warning says whether a subnormal or a NaN was replaced, and IEEE-compliant formats never warn. reinterpret_as_bv never warns, neither about flushing nor about truncation, for any object of the format.", "quantifier": "every format, bit pattern and object", "why_tests_cant": "all formats, patterns and objects", "anchors": ["hwtypes/fp_vector.py:FPVector.reinterpret_from_bv", "hwtypes/fp_vector.py:FPVector.reinterpret_as_bv"]}
{"id": "C128", "title": "Ring and bitwise code agrees with Python ints modulo 2^n", "statement": "A function built from + - * & | ^ ~, unary - and << by literals in [0, 2^n), with vectors of one class as arguments and int literals anywhere, returns on vectors what it returns on Python ints, reduced modulo 2^n (arguments read as signed or unsigned, no difference). So every identity of the integers holds for vectors of every width, and if the exact result is in range it is the result, whatever overflowed on the way. With >>, // or % this fails.", "quantifier": "every class, width, expression and arguments", "why_tests_cant": "all expressions, all widths", "anchors": ["hwtypes/bit_vector.py:BitVector.bvadd", "hwtypes/bit_vector.py:BitVector.bvmul", "hwtypes/bit_vector.py:BitVector.bvxor", "hwtypes/bit_vector.py:BitVector.bvshl", "hwtypes/bit_vector.py:BitVector.__init__", "hwtypes/bit_vector.py:dispatch_oper", "hwtypes/bit_vector.py:dispatch_roper"]}
{"id": "C129", "title": "Without overflow all operators are those of Python ints", "statement": "A function built from all operators (& | ^ << >> + - * // %, ~, unary -, comparisons) with vectors of one class and int literals: if the run on Python ints (as_uint of the arguments, as_sint for SIntVector) returns and no intermediate value leaves the range of the class, the run on vectors returns exactly the same numbers.", "quantifier": "every class, width, expression and arguments", "why_tests_cant": "all expressions, all widths", "anchors": ["hwtypes/bit_vector.py:BitVector.bvlshr", "hwtypes/bit_vector.py:BitVector.bvudiv", "hwtypes/bit_vector.py:BitVector.bvsdiv", "hwtypes/bit_vector.py:BitVector.bvsrem", "hwtypes/bit_vector.py:SIntVector", "hwtypes/bit_vector.py:dispatch_oper", "hwtypes/bit_vector.py:dispatch_roper"]}
{"id": "C130", "title": "Symbolic code agrees with Python ints", "statement": "The same functions on SMTBitVector and z3BitVector: under every assignment of the inputs the result has the value of the run on Python ints, modulo 2^n for ring and bitwise code and exactly where nothing overflows; so every identity of the integers is valid for the solver at every width.", "quantifier": "every class, width, expression, input and assignment", "why_tests_cant": "all expressions, widths and assignments", "anchors": ["hwtypes/smt_bit_vector.py:SMTBitVector.bvadd", "hwtypes/smt_bit_vector.py:SMTBitVector.bvmul", "hwtypes/smt_bit_vector.py:dispatch_oper", "hwtypes/z3_bit_vector.py:z3BitVector.bvadd", "hwtypes/z3_bit_vector.py:z3BitVector.bvmul"]}
{"id": "C131", "title": "Vectors of user-defined classes compute as the class they derive from", "statement": "For every class derived from BitVector, SIntVector, ... or from a sized class (by subclassing or by a modifier, overriding nothing): methods, comparisons, readings, operators and ite give the same values and exceptions as on the predefined class of the same width; arithmetic results belong to type(self) (operators: the class of the left operand), structural results to the class of the new width.", "quantifier": "every class hierarchy, class, value and argument", "why_tests_cant": "all class hierarchies and all inputs", "anchors": ["hwtypes/bit_vector.py:BitVector", "hwtypes/bit_vector.py:SIntVector", "hwtypes/bit_vector.py:_coerce", "hwtypes/bit_vector_abc.py:AbstractBitVectorMeta.__new__", "hwtypes/bit_vector_abc.py:AbstractBitVectorMeta.unsized_t", "hwtypes/bit_vector_util.py:PolyVector"]}
{"id": "C132", "title": "The modifiers of a type are listed in order, once each, and rebuild it", "statement": "In every history: get_all_modifiers(M(T)) is get_all_modifiers(T) followed by M, never with a repetition (applying a modifier the type already carries raises); wrap_modifier(*unwrap_modifier(T)) is T and makes no class; a type is determined by unwrap_modifier(T); issubclass(T, M) and isinstance(x, M) tell whether M is among the modifiers of the type.", "quantifier": "every history of class statements, modifier applications and collections; every type alive", "why_tests_cant": "history-quantified: the lists are read off the class hierarchy and weak caches", "anchors": ["hwtypes/modifiers.py:get_all_modifiers", "hwtypes/modifiers.py:unwrap_modifier", "hwtypes/modifiers.py:wrap_modifier", "hwtypes/modifiers.py:_ModifierMeta.__instancecheck__", "hwtypes/modifiers.py:_ModifierMeta.__subclasscheck__"]}
{"id": "C133", "title": "Records packed with concat come apart into the same fields", "statement": "Concatenating vectors of one class, in any number and of any widths, gives a vector whose bits are the bits of the fields, first field lowest; slicing it at the running offsets gives back exactly the fields; slicing any vector into consecutive pieces and concatenating them gives back the vector; and replacing a slice by x[0:lo].concat(y).concat(x[hi:len(x)]) changes exactly the bits lo..hi-1. Packing and unpacking do the same in the pysmt and the z3 families under every assignment, and so does the replacement when bits remain on both sides of the slice.", "quantifier": "every number of fields, every width, every value, every assignment", "why_tests_cant": "the fields are a list of any length of symbolic vectors", "anchors": ["hwtypes/bit_vector.py:BitVector.concat", "hwtypes/bit_vector.py:BitVector.__getitem__", "hwtypes/smt_bit_vector.py:SMTBitVector.concat", "hwtypes/smt_bit_vector.py:SMTBitVector.__getitem__", "hwtypes/z3_bit_vector.py:z3BitVector.concat", "hwtypes/z3_bit_vector.py:z3BitVector.__getitem__"]}
{"id": "C134", "title": "Python functions with loops and handlers mean the same with every family", "statement": "A Python function over vectors and bits with if, for, while, raise and try, which never asks a vector or a bit for its truth value, run with the pysmt family ends exactly when it ends in simulation, with the same Python result or the same exception, and its vectors stand for the simulated ones under every assignment; the same with z3 unless a handler tells InconsistentSizeError from TypeError; a solver proves the bit the function returns iff simulation gives true for all inputs; and what such a function returns or raises depends on the classes and widths of its arguments only.", "quantifier": "every function (finite or not in its branching, with any loops), every argument, every assignment", "why_tests_cant": "quantifies over all client programs and all solver assignments", "anchors": ["hwtypes/smt_bit_vector.py:SMTBitVector", "hwtypes/smt_bit_vector.py:SMTBit", "hwtypes/z3_bit_vector.py:z3BitVector", "hwtypes/z3_bit_vector.py:z3Bit", "hwtypes/bit_vector.py:BitVector", "hwtypes/bit_vector.py:Bit"]}
{"id": "C135", "title": "A symbolic value is never silently taken for true", "statement": "Code that branches on a symbolic bit or vector (if x:, and, or, not, assert) raises, instead of taking one branch whatever the value.", "quantifier": "every function, every argument, every assignment", "why_tests_cant": "quantifies over all client programs and all solver assignments", "anchors": ["hwtypes/smt_bit_vector.py:SMTBit.__bool__", "hwtypes/bit_vector.py:Bit.__bool__", "hwtypes/bit_vector.py:BitVector.__bool__", "hwtypes/smt_bit_vector.py:SMTBitVector.__len__", "hwtypes/z3_bit_vector.py:z3BitVector.__len__", "hwtypes/z3_bit_vector.py:z3Bit"]}
{"id": "C136", "title": "Vectors in lists are ordered, sorted and found by value", "statement": "Vectors of one width: of any two exactly one of x < y, x == y, x > y holds, and the reflected comparison agrees; if all are SIntVectors or none is, the six comparisons are those of int(x), sorted(l) is the stable sort of l by int(x), min(l) and max(l) are the first item with the least and greatest int(x); x in l, l.index(x) and l.count(x) go by the bits of the items, of whatever predefined classes; and of the three comparisons of two symbolic vectors exactly one is true under every assignment.", "quantifier": "every list of vectors of any length, every width, every value, every assignment", "why_tests_cant": "quantifies over all lists and widths; a test sorts a few of them", "anchors": ["hwtypes/bit_vector.py:BitVector.__lt__", "hwtypes/bit_vector.py:BitVector.__gt__", "hwtypes/bit_vector.py:BitVector.__eq__", "hwtypes/bit_vector.py:SIntVector.__lt__", "hwtypes/bit_vector.py:SIntVector.__gt__", "hwtypes/bit_vector.py:Bit.__bool__", "hwtypes/smt_bit_vector.py:SMTBitVector.__lt__", "hwtypes/z3_bit_vector.py:z3BitVector.__lt__", "hwtypes/smt_bit_vector.py:SMTBit.__bool__"]}
{"id": "C137", "title": "Python functions that assign to bits mean the same with every family", "statement": "A Python function over vectors and bits with if, for, while, raise and try that also writes x[i] = v, gives objects further names and asks `x is y`, and never asks a vector or a bit for its truth value, ends with the symbolic families exactly when it ends in simulation, with the same Python result or exception, with the same names for one object, and with objects that stand for the simulated ones under every assignment; a solver proves the bit it returns iff simulation gives true for all inputs; and what it returns, `is` included, depends on the classes and widths of its arguments only.", "quantifier": "every function with any loops and handlers, every argument, every pattern of aliasing, every assignment", "why_tests_cant": "quantifies over all client programs, aliasings and solver assignments", "anchors": ["hwtypes/bit_vector.py:BitVector.__setitem__", "hwtypes/smt_bit_vector.py:SMTBitVector.__setitem__", "hwtypes/z3_bit_vector.py:z3BitVector.__setitem__", "hwtypes/bit_vector.py:BitVector.bvurem", "hwtypes/smt_bit_vector.py:SMTBitVector", "hwtypes/z3_bit_vector.py:z3BitVector", "hwtypes/bit_vector.py:BitVector"]}
{"id": "C138", "title": "Symbolic vectors of user-defined classes compute as the class they derive from", "statement": "For every class derived from SMTBitVector, SMTSIntVector, z3BitVector, z3SIntVector, ... or from a sized class of theirs (by subclassing or by a modifier, overriding nothing): construction, methods, comparisons, readings, item assignment, operators, adc and ite give the same expressions and exceptions as on the predefined class of the same width; under every assignment the operators have the reference value, in the class of the left operand; structural results belong to the class of the new width.", "quantifier": "every class hierarchy, class, expression, argument and assignment", "why_tests_cant": "all class hierarchies, all inputs and all assignments of the solver variables", "anchors": ["hwtypes/smt_bit_vector.py:SMTBitVector", "hwtypes/smt_bit_vector.py:SMTSIntVector", "hwtypes/smt_bit_vector.py:_coerce", "hwtypes/z3_bit_vector.py:z3BitVector", "hwtypes/z3_bit_vector.py:z3SIntVector", "hwtypes/z3_bit_vector.py:_coerce", "hwtypes/bit_vector_abc.py:AbstractBitVectorMeta.unsized_t"]}
{"id": "C139", "title": "A pysmt formula can stand for the bit or vector it is the value of", "statement": "For every pysmt formula t: SMTBitVector[n](t) (and every other class of width n) takes exactly the formulas of sort BV(n), SMTBit(t) exactly the Boolean ones, TypeError otherwise; the result has the meaning of t under every assignment, so T(x.value) means x. As the second operand of a method, operator, comparison or of adc, and as element of a list of bits, t acts as the vector or bit of its value.", "quantifier": "every formula, class, vector, operator and assignment", "why_tests_cant": "all formulas and all assignments of the solver variables", "anchors": ["hwtypes/smt_bit_vector.py:SMTBit.__init__", "hwtypes/smt_bit_vector.py:SMTBitVector.__init__", "hwtypes/smt_bit_vector.py:_coerce", "hwtypes/smt_bit_vector.py:bv_cast", "hwtypes/smt_bit_vector.py:bit_cast", "hwtypes/smt_bit_vector.py:SMTBitVector.adc"]}
{"id": "C140", "title": "A z3 expression can stand for the bit or vector it is the value of", "statement": "For every z3 expression t: z3BitVector[n](t) (and every other class of width n) takes the bit-vector expressions of n bits, TypeError for another width, and Boolean ones as 0 or 1; z3Bit(t) takes the Boolean ones; the result has the meaning of t under every assignment, so T(x.value) means x. As the second operand of a method, operator, comparison or of adc, as operand or carry, as a branch of ite beside a vector and as element of a list of bits, t acts as the vector or bit of its value.", "quantifier": "every expression, class, vector, operator and assignment", "why_tests_cant": "all expressions and all assignments of the solver variables", "anchors": ["hwtypes/z3_bit_vector.py:z3Bit.__init__", "hwtypes/z3_bit_vector.py:z3BitVector.__init__", "hwtypes/z3_bit_vector.py:_coerce", "hwtypes/z3_bit_vector.py:bv_cast", "hwtypes/z3_bit_vector.py:bit_cast", "hwtypes/z3_bit_vector.py:z3BitVector.adc", "hwtypes/z3_bit_vector.py:z3Bit.ite"]}
{"id": "C141", "title": "A pysmt formula can stand for the integer it is the value of", "statement": "For every pysmt formula t: SMTInt(t) takes exactly the formulas of integer and of bit-vector sort, TypeError otherwise, and means the value of t, read as unsigned if t is a vector; SMTInt(x.value) means x for symbolic integers and vectors x. As operand of +, -, *, // and the comparisons of an SMTInt, on either side of the method, t acts as the int of its value.", "quantifier": "every formula, symbolic integer, operator and assignment", "why_tests_cant": "all formulas and all assignments of the solver variables", "anchors": ["hwtypes/smt_int.py:SMTInt.__init__", "hwtypes/smt_int.py:int_cast", "hwtypes/smt_int.py:SMTInt.__sub__", "hwtypes/smt_int.py:SMTInt.__floordiv__"]}
{"id": "C142", "title": "Concrete vectors and bits can be mixed with symbolic ones", "statement": "For a symbolic vector x and a concrete vector Y of the same class and width: every operator and comparison between them, in either order, means under every assignment what it means for two concrete vectors; likewise for an SMTBit and a Bit. A concrete vector given to a symbolic constructor or operator counts as the number int(Y): pysmt classes raise ValueError if it is negative or does not fit, z3 classes take it modulo 2^n. pysmt and z3 objects do not mix: TypeError.", "quantifier": "every operator, class, width, vector, bit and assignment", "why_tests_cant": "all widths, values and assignments of the solver variables", "anchors": ["hwtypes/smt_bit_vector.py:_coerce", "hwtypes/smt_bit_vector.py:dispatch_oper", "hwtypes/smt_bit_vector.py:SMTBitVector.__init__", "hwtypes/smt_bit_vector.py:bit_cast", "hwtypes/z3_bit_vector.py:_coerce", "hwtypes/z3_bit_vector.py:z3BitVector.__init__", "hwtypes/bit_vector.py:_coerce", "hwtypes/bit_vector.py:dispatch_oper", "hwtypes/bit_vector.py:BitVector.__int__", "hwtypes/bit_vector.py:Bit.__bool__"]}
{"id": "C143", "title": "Comparing ADT values with symbolic fields", "statement": "== and != of Tuple, Product, Sum and TaggedUnion values whose fields are vectors, bits and enum members mean the same with symbolic fields as with concrete ones: a bool that is returned is the one the simulation returns whatever the assignment, a symbolic bit stands for the simulation's. If a tuple needs the truth value of a symbolic comparison, TypeError is raised.", "quantifier": "every value, nesting, class, width and assignment", "why_tests_cant": "all values, nestings and assignments of the solver variables", "anchors": ["hwtypes/adt.py:Tuple.__eq__", "hwtypes/adt.py:Tuple.__ne__", "hwtypes/adt.py:Sum.__eq__", "hwtypes/adt.py:Sum.__ne__", "hwtypes/adt.py:TaggedUnion.__eq__", "hwtypes/smt_bit_vector.py:SMTBit.__bool__", "hwtypes/smt_bit_vector.py:SMTBitVector.bveq", "hwtypes/z3_bit_vector.py:z3BitVector.bveq"]}
{"id": "C144", "title": "Circuits whose multiplexers mix vector classes", "statement": "A function over vectors and bits that uses ite with branches of different vector classes of one width (signed, unsigned, plain, or results of other such multiplexers), then operators, comparisons, ext, concat and the other methods on the results, computes with SMTBitVector a term that under every assignment is what it computes with BitVector; it raises exactly when the simulation raises, and the same exception. So the solver proves an output exactly if simulation gives true for all inputs, and counterexamples replay.", "quantifier": "every function of this form, every nesting of multiplexers, every width, input and assignment", "why_tests_cant": "functions, widths and assignments are unbounded; a test fixes one function and some inputs", "anchors": ["hwtypes/bit_vector_util.py:build_ite", "hwtypes/bit_vector_util.py:determine_return_type", "hwtypes/bit_vector_util.py:PolyVector", "hwtypes/bit_vector_util.py:build_VCall", "hwtypes/smt_bit_vector.py:SMTBit.ite", "hwtypes/bit_vector.py:Bit.ite", "hwtypes/smt_bit_vector.py:SMTBitVector.ext", "hwtypes/bit_vector.py:BitVector.ext"]}
{"id": "C145", "title": "Which objects follow the bit-vector protocol", "statement": "An object is an instance of BitVectorProtocol, and may be a branch of ite together with another object of its class, exactly if its type has _bitvector_t_, _from_bitvector_ and _to_bitvector_, without any inheritance; a class derived from BitVectorProtocol qualifies as well. A class derived from BitVectorProtocol accepts in isinstance only its own objects and those of its subclasses.", "quantifier": "every class, metaclass and inheritance graph", "why_tests_cant": "classes and metaclasses are unbounded, the overridden checks call each other and climb the tower of metaclasses", "anchors": ["hwtypes/bit_vector_util.py:BitVectorProtocol", "hwtypes/bit_vector_util.py:BitVectorProtocolMeta", "hwtypes/bit_vector_util.py:_BitVectorProtocolMetaMeta", "hwtypes/bit_vector_util.py:determine_return_type", "hwtypes/bit_vector_util.py:push_ite"]}
{"id": "C146", "title": "rebind of modified classes and of classes with methods", "statement": "For every bound class T, also one that is modified, contains modified classes or has methods, T.rebind(A, B) is a class of the kind of T with the unbound_t, the __name__ and the field names of T in which the fields that are A (with rebind_sub_types: or derive from it) have become B, at every depth unless rebind_recursive is false; it raises TypeError exactly if the recursion meets an AnonymousProduct. Rebinding to a class that does not occur, and back, restores T up to the place of the modifiers, the attributes that are not fields, and alternatives that differ only in these.", "quantifier": "every bound class, every A and B, both flags, every order of the sets", "why_tests_cant": "class trees are unbounded in depth and width, modifiers may sit at any of their nodes", "anchors": ["hwtypes/adt_meta.py:_GetitemSyntax.rebind", "hwtypes/adt_meta.py:_AttrSyntax.rebind", "hwtypes/modifiers.py:make_modifier"]}
{"id": "C147", "title": "ite with selector and branches from different families", "statement": "A concrete Bit selects between bits and vectors of any family: c.ite(t, f) returns exactly if the branches have the same tuple structure and at each place two objects of one class, or two concrete vectors of one width; the result is the selected branch, with the same contents at every place under every assignment of the symbols. An SMTBit selects between objects of its own family only. Two families are never mixed at one place: that raises TypeError; concrete leaves under an SMTBit raise AttributeError. z3Bit.ite instead converts concrete branches to z3 vectors.", "quantifier": "every selector of the concrete and the pysmt family, all nested tuples of bits and vectors of three families, every assignment of the symbols", "why_tests_cant": "tuples are unbounded in depth and width; a test compares terms, not what they mean under all assignments", "anchors": ["hwtypes/bit_vector_util.py:determine_return_type", "hwtypes/bit_vector_util.py:push_ite", "hwtypes/bit_vector_util.py:coerce_branch", "hwtypes/bit_vector_util.py:PolyType.__getitem__", "hwtypes/bit_vector.py:Bit.ite", "hwtypes/smt_bit_vector.py:SMTBit.ite", "hwtypes/z3_bit_vector.py:z3Bit.ite"]}
{"id": "C148", "title": "Circuits with state: unrolling and induction agree with simulation", "statement": "Let a circuit with registers be a function from state and inputs to the next state and an asserted bit. Unrolled over variables of SMTBitVector or z3BitVector for any number of cycles, the solver proves the assertions exactly if no simulation with BitVector violates one or raises; a counterexample, read back, replays in simulation cycle by cycle; a proof by induction over the cycles with any window implies that simulations of every length, with all inputs, raise nothing and keep the assertion.", "quantifier": "every circuit with state (C123's instructions, any reset, body and widths), every number of cycles, all parameters and inputs, every induction window", "why_tests_cant": "simulations of all lengths; a proof over variables is compared with runs over all values", "anchors": ["hwtypes/bit_vector_abc.py:AbstractBitVector", "hwtypes/bit_vector.py:BitVector", "hwtypes/smt_bit_vector.py:SMTBitVector", "hwtypes/z3_bit_vector.py:z3BitVector", "hwtypes/smt_bit_vector.py:SMTBit.ite", "hwtypes/z3_bit_vector.py:z3Bit.ite", "hwtypes/bit_vector.py:Bit.ite"]}
{"id": "C149", "title": "Assigning to an object changes the ADT values that hold it and no others", "statement": "ADT values hold the objects they are made of, not copies. A value stays as it is under every sequence of operations on objects that are not among its parts, at any depth; an in-place change of a part, such as x[0] = 1 on a vector, makes every value with this part unequal to what it was. Construction gives the value made of the values of its arguments. Fields of a copy type(x)(*x), and of the values yielded by enumerate(), can be assigned without changing the original or the other yielded values, and the values yielded by enumerate() are independent of each other.", "quantifier": "every store of ADT objects, every class and history of constructions, assignments and in-place changes; every value that is a finite tree", "why_tests_cant": "which objects are shared depends on the history; the histories, classes and depths are unbounded", "anchors": ["hwtypes/adt.py:Tuple.__init__", "hwtypes/adt.py:Tuple.__setitem__", "hwtypes/adt.py:Sum.__init__", "hwtypes/adt.py:TaggedUnion.__init__", "hwtypes/adt_meta.py:TupleMeta.enumerate", "hwtypes/adt_meta.py:SumMeta.enumerate", "hwtypes/adt_meta.py:TaggedUnionMeta.enumerate"]}
{"id": "C150", "title": "Field names lead to fields, other names to the library", "statement": "If the class statement of a Product, TaggedUnion or Enum is accepted, C.k is the type of field k (for an Enum its member) and x.k the value of field k (for a TaggedUnion its Match; on an Enum member AttributeError); every name that the statement and the user's base classes do not mention leads where it leads on a class without fields; and no field name takes the methods and properties of the library from a class or its instances.", "quantifier": "every class body, base classes of the user and field name", "why_tests_cant": "names and class bodies are unbounded; which of two attributes wins depends on both classes, the metaclass and the instance", "anchors": ["hwtypes/adt_meta.py:_AttrSyntax.__new__", "hwtypes/adt_meta.py:AnonymousProductMeta._namespace_from_idx", "hwtypes/adt_meta.py:TaggedUnionMeta._from_fields", "hwtypes/adt_meta.py:EnumMeta._from_fields", "hwtypes/adt.py:Enum.__getattribute__", "hwtypes/adt.py:AnonymousProduct.value_dict"]}
{"id": "C151", "title": "if on bits replaced by ite", "statement": "A function over bits and vectors that branches with if can be rewritten to run both branches, merge the variables they assign with ite and guard each assert with the path condition. Where the rewritten function returns: run in simulation it has the values of the original, and the original raises AssertionError exactly when a guarded assertion is false; run over free variables with pysmt or z3, the solver proves the guarded assertions (or an output) exactly when the original passes (or has the output true) on all inputs; and whether it returns depends neither on the inputs nor on the family.", "quantifier": "every function with nested if/else and assert over the modelled operators, ports of any widths, all inputs and assignments", "why_tests_cant": "functions, widths and inputs are unbounded; symbolic runs visit paths that no single concrete run visits", "anchors": ["hwtypes/bit_vector.py:Bit.ite", "hwtypes/bit_vector.py:Bit.__bool__", "hwtypes/bit_vector_util.py:build_ite", "hwtypes/smt_bit_vector.py:SMTBit.ite", "hwtypes/z3_bit_vector.py:z3Bit.ite"]}
{"id": "C152", "title": "eval(repr(x)) of ADT values", "statement": "repr of an ADT value is a Python expression, and evaluated where its names have their meaning it returns an unassigned value with the same contents, equal to the original if that was never assigned to. This fails, and exactly then, when somewhere inside a vector is a field of a Product or AnonymousProduct or the value of a Sum or TaggedUnion (TypeError), or a TaggedUnion has several fields (ValueError). Tuple[()] prints no expression.", "quantifier": "all values of all nested ADT classes, all spellings of names and all namespaces that bind the printed names", "why_tests_cant": "values nest without bound, and reading text back concerns every class and every namespace", "anchors": ["hwtypes/adt.py:Tuple.__repr__", "hwtypes/adt.py:AnonymousProduct.__repr__", "hwtypes/adt.py:Sum.__repr__", "hwtypes/adt.py:TaggedUnion.__repr__", "hwtypes/adt.py:Enum.__repr__", "hwtypes/adt_meta.py:BoundMeta._name_cb", "hwtypes/adt_meta.py:AnonymousProductMeta._name_from_idx", "hwtypes/bit_vector.py:BitVector.__repr__", "hwtypes/bit_vector.py:Bit.__repr__"]}
{"id": "C153", "title": "functions with several returns replaced by ite", "statement": "A function over bits and vectors that returns tuples from inside nested ifs on bits can be rewritten to run every path to its return and merge the returned tuples entry by entry with ite, guarding each assert with the path condition. Where the rewritten function returns: run in simulation it returns the tuple the original returns, and the original raises AssertionError exactly when a guarded assertion is false; run over free variables with pysmt or z3, the solver proves the guarded assertions (or a returned bit) exactly when the original passes (or returns that bit true) on all inputs; and whether it returns depends neither on the inputs nor on the family.", "quantifier": "every function with early returns, nested if/else and assert over the modelled operators, ports of any widths, all inputs and assignments", "why_tests_cant": "the number of paths grows with the function, and functions, widths and inputs are unbounded; one concrete run takes one return", "anchors": ["hwtypes/bit_vector.py:Bit.ite", "hwtypes/bit_vector.py:Bit.__bool__", "hwtypes/bit_vector_util.py:build_ite", "hwtypes/smt_bit_vector.py:SMTBit.ite", "hwtypes/z3_bit_vector.py:z3Bit.ite"]}
{"id": "C154", "title": "while on bits, unrolled", "statement": "A function over bits and vectors with nested while loops on bits, if and assert can be rewritten by unrolling every loop k times: each turn is run whatever the condition, the loop variables are merged with ite, and after the last turn the condition is asserted to be false. Where the rewritten function returns: over free variables, pysmt or z3 prove its assertions (or an output) exactly when on all inputs the original raises nothing and takes at most k turns in every loop (and has the output true); it then has the same values; a proof for any k shows that the original stops on all inputs; and if the original stops on all inputs there is a k from which on the solver proves it.", "quantifier": "every function with nested loops, if and assert over the modelled operators, every k, ports of any widths, all inputs and assignments", "why_tests_cant": "termination and the number of turns are claims about all inputs; functions, widths and k are unbounded", "anchors": ["hwtypes/bit_vector.py:Bit.ite", "hwtypes/bit_vector.py:Bit.__bool__", "hwtypes/bit_vector_util.py:build_ite", "hwtypes/smt_bit_vector.py:SMTBit.ite", "hwtypes/z3_bit_vector.py:z3Bit.ite"]}
{"id": "C155", "title": "functions over records and unions mean the same with every family", "statement": "A function over Tuples, Products, Sums, TaggedUnions and enum members of vectors and bits, whose classes are declared with the BitVector and Bit of a family, can be run in simulation or with the pysmt or z3 family. Under every assignment the runs agree: the same variables refer to the same objects (so an assignment to a field is seen through the same names), of the same classes up to the family, with equal vectors and bits, the same branches on tags are taken, and the same exceptions are raised (z3: TypeError for InconsistentSizeError). A solver proves a computed bit over free variables exactly when simulation gives true on all inputs, and its counterexamples replay. Moving the classes with rebind_type instead has the same effect when their vectors are all BitVectors.", "quantifier": "every sequence of constructions, reads, assignments, tag tests and vector operations, every nesting and sharing of records, ports of any widths, all inputs and assignments", "why_tests_cant": "functions, classes, sharing patterns, widths and inputs are unbounded", "anchors": ["hwtypes/adt.py:Tuple.__setitem__", "hwtypes/adt.py:Product", "hwtypes/adt.py:Sum.__init__", "hwtypes/adt.py:TaggedUnion.__init__", "hwtypes/adt_util.py:rebind_type", "hwtypes/bit_vector.py:Bit.ite", "hwtypes/smt_bit_vector.py:SMTBit.ite", "hwtypes/z3_bit_vector.py:z3Bit.ite"]}
{"id": "C156", "title": "vectors are Python sequences of bits", "statement": "No class defines __iter__, __contains__ or __reversed__, yet a vector is a Python sequence of its bits: list(x), for loops and *x give exactly the n Bits, the least significant first, and end without an exception; reversed(x) gives them backwards; a, b, ... = x works for exactly n targets and raises ValueError otherwise. T(list(x)) is x; two vectors have the same list iff they have the same width and value; list commutes with slices (exceptions included), concat and repeat. any(x) iff x is not 0, all(x) iff x is all ones, b in x iff some bit equals b. A loop that assigns x[i] while it goes through enumerate(x) sees the original bits. Symbolic vectors have the same bits under every assignment, in the same order, and are rebuilt by the constructor. A Tuple or Product is the sequence of its fields (without reversed: it has no __len__).", "quantifier": "all vectors of every width and class, all slices and counts, all assignments", "why_tests_cant": "widths and values are unbounded, and the protocol is implicit: no method to test implements it", "anchors": ["hwtypes/bit_vector.py:BitVector.__getitem__", "hwtypes/bit_vector.py:BitVector.__len__", "hwtypes/bit_vector.py:BitVector.__init__", "hwtypes/smt_bit_vector.py:SMTBitVector.__getitem__", "hwtypes/z3_bit_vector.py:z3BitVector.__getitem__", "hwtypes/z3_bit_vector.py:z3Bit", "hwtypes/adt.py:Tuple.__getitem__"]}
{"id": "C157", "title": "copies of values are equal and independent", "statement": "copy.copy(x) of a vector, bit, enum member, Tuple, Sum or TaggedUnion is a new object of the same class and value with the same parts; assignments to one leave the other alone. copy.deepcopy(x) ends, changes no existing object, and its result has a new object for every object that can be reached from x and shares exactly what x shares; it equals x, and no assignment or in-place change of objects of one changes the other.", "quantifier": "every value in every store: all classes, depths and sharing patterns; every later history of assignments", "why_tests_cant": "values, sharing and histories are unbounded, and the library has no copying code: what copying does follows from __new__", "anchors": ["hwtypes/adt.py:Tuple.__new__", "hwtypes/adt_meta.py:AnonymousProductMeta._from_idx", "hwtypes/adt_meta.py:EnumMeta.Auto", "hwtypes/adt.py:Enum.__eq__", "hwtypes/adt.py:Tuple.__setitem__"]}
{"id": "C158", "title": "dictionaries with ADT values as keys are maps on values", "statement": "In every program that makes, reads and assigns ADT values and stores, finds and deletes entries of a dictionary under them, what is stored under a key is found under every object equal to it and under no other, whatever the hash function; a value with a part that has been assigned to raises TypeError as a key.", "quantifier": "every program over ADT values of any depth and sharing, every hash function", "why_tests_cant": "programs, values and hash functions are unbounded, and which objects share parts with keys depends on the history", "anchors": ["hwtypes/adt.py:Tuple.__hash__", "hwtypes/adt.py:Tuple.__eq__", "hwtypes/adt.py:Sum.__hash__", "hwtypes/adt.py:TaggedUnion.__hash__", "hwtypes/adt.py:Enum.__hash__", "hwtypes/adt.py:Tuple.__setitem__"]}
{"id": "C159", "title": "sizing a class keeps its method resolution order", "statement": "In every history of classes, T[n] of an unsized vector class T can be made, every method is found in T[n] where it is found in T, and T[n] inherits from S[n] for every vector class S above T, in the order of T's MRO.", "quantifier": "every history of class statements, sizings and collections, every class and size", "why_tests_cant": "class hierarchies are unbounded, and whether the C3 linearisation of the sized classes exists depends on the whole hierarchy", "anchors": ["hwtypes/bit_vector_abc.py:AbstractBitVectorMeta.__getitem__", "hwtypes/bit_vector_abc.py:AbstractBitVectorMeta.__new__"]}
{"id": "C160", "title": "when a type modifier applies, and what the modified class inherits", "statement": "M(T) can be made for every class T none of whose ancestors (T included) was made by M; M(T) has the kind and the fields of T, and every attribute is found in M(T) where it is found in T: its MRO is that of T with each class preceded by its modified version.", "quantifier": "every history of class statements, T[...], modifiers and collections, every class and modifier", "why_tests_cant": "class hierarchies are unbounded, and whether the modified bases have a C3 linearisation and compatible fields depends on the whole hierarchy", "anchors": ["hwtypes/modifiers.py:_ModifierMeta.__call__", "hwtypes/adt_meta.py:BoundMeta.__new__"]}
{"id": "C161", "title": "binding an algebraic data type keeps its methods", "statement": "In every history of classes, an attribute that bound classes do not define themselves is found in T[...] where it is found in T, and in a class statement with fields where the same statement without fields finds it.", "quantifier": "every history of class statements, T[...], modifiers and collections, every class and argument", "why_tests_cant": "class hierarchies are unbounded, and the MRO of a bound class is a C3 merge over the bound versions of all its ancestors", "anchors": ["hwtypes/adt_meta.py:BoundMeta._from_idx", "hwtypes/adt_meta.py:AnonymousProductMeta._bases_from_idx", "hwtypes/adt_meta.py:ProductMeta._from_fields", "hwtypes/adt_meta.py:TaggedUnionMeta._from_fields"]}
{"id": "C162", "title": "the operators agree with gate-level circuits at every width", "statement": "A ripple-carry adder, a subtractor, signed and unsigned comparators, a shift-and-add multiplier, barrel shifters and a restoring divider, written with x[i], Bit operations, ite and simpler methods, give what adc, bvadd, bvsub, bvult, bvule, bveq, bvslt, bvsle, bvmul, bvshl, bvlshr, bvashr, bvudiv and bvurem give, in simulation and under every assignment in the SMT and z3 families.", "quantifier": "every width, class, pair of operands, carry in and assignment", "why_tests_cant": "the circuits grow with the width and the operands are exponentially many; a test checks one width", "anchors": ["hwtypes/bit_vector.py:BitVector.adc", "hwtypes/bit_vector.py:BitVector.bvudiv", "hwtypes/bit_vector.py:BitVector.bvurem", "hwtypes/bit_vector.py:BitVector.bvmul", "hwtypes/bit_vector.py:BitVector.__getitem__", "hwtypes/smt_bit_vector.py:SMTBitVector.bvmul", "hwtypes/z3_bit_vector.py:z3BitVector.bvudiv"]}
{"id": "C163", "title": "the usual rewrites of arithmetic into cheaper operations change nothing", "statement": "At every positive width -x is ~x + 1, x - y is x + -y, x * 2**k is x << k, x // 2**k is x >> k, x % 2**k is x & (2**k - 1), x.sext(m) is zext, shift left and arithmetic shift right, bvrol is two shifts and an or, x + y is (x ^ y) + ((x & y) << 1), x | y is (x ^ y) + (x & y), (x & y) + ((x ^ y) >> 1) is the average of x and y, De Morgan holds, ite is a mask with -1 or 0, a signed comparison is an unsigned one with the sign bits flipped and the carry of adc is x + y < x: both sides succeed with the same value, in simulation and under every assignment in the SMT and z3 families.", "quantifier": "every width, predefined class, operand, shift amount and assignment", "why_tests_cant": "the operands are exponentially many in the width and the symbolic families must agree under every assignment", "anchors": ["hwtypes/bit_vector.py:BitVector.bvneg", "hwtypes/bit_vector.py:BitVector.bvmul", "hwtypes/bit_vector.py:BitVector.bvudiv", "hwtypes/bit_vector.py:BitVector.bvurem", "hwtypes/bit_vector.py:BitVector.sext", "hwtypes/bit_vector.py:BitVector.bvrol", "hwtypes/bit_vector.py:BitVector.adc", "hwtypes/bit_vector.py:BitVector.bvslt", "hwtypes/smt_bit_vector.py:SMTBitVector.bvneg", "hwtypes/z3_bit_vector.py:z3BitVector.bvurem"]}
{"id": "C164", "title": "code that only moves bits is wiring, the same for all values", "statement": "A function made of constants, x[i], x[lo:hi], concat, zext, sext, rotations and shifts by ints, ~ and bitwise methods with an int operand either fails on all inputs of the declared classes and widths, with one exception in simulation, or succeeds on all of them; then there is one drawing of wires and inverters, fixed by the classes and widths alone, that gives every digit of every value it makes, in simulation and under every assignment in the SMT and z3 families. So a digit of a result depends on at most one digit of the inputs.", "quantifier": "every such function, every declaration of its inputs, every input and assignment", "why_tests_cant": "functions and inputs are unbounded; a test sees some values of one function and cannot tell that no other value is treated differently", "anchors": ["hwtypes/bit_vector.py:BitVector.__getitem__", "hwtypes/bit_vector.py:BitVector.concat", "hwtypes/bit_vector.py:BitVector.zext", "hwtypes/bit_vector.py:BitVector.sext", "hwtypes/bit_vector.py:BitVector.bvrol", "hwtypes/bit_vector.py:BitVector.bvror", "hwtypes/bit_vector.py:BitVector.bvshl", "hwtypes/bit_vector.py:BitVector.bvashr", "hwtypes/smt_bit_vector.py:SMTBitVector.concat", "hwtypes/z3_bit_vector.py:z3BitVector.concat"]}
{"id": "C165", "title": "the low digits of a result can be computed at a smaller width", "statement": "Let a function over vectors of width n use constants, ~, -, bvand, bvor, bvxor, bvnand, bvnor, bvxnor, bvadd, bvsub, bvmul, bvshl by an int c with 0 <= c < 2**k, x[i] with i < k, ite and operations on bits. Run with the first k digits x[0:k] of its inputs, and its constants made at width k, it raises the same exception, or its vectors are the first k digits of those at width n and its bits the same bits: in simulation and under every assignment in the SMT and z3 families. So no digit of a result depends on higher digits of the inputs.", "quantifier": "every such function, every pair of widths 0 < k <= n, every input and assignment", "why_tests_cant": "functions, widths and inputs are unbounded; a test compares two widths on some values", "anchors": ["hwtypes/bit_vector.py:BitVector.bvadd", "hwtypes/bit_vector.py:BitVector.bvsub", "hwtypes/bit_vector.py:BitVector.bvmul", "hwtypes/bit_vector.py:BitVector.bvneg", "hwtypes/bit_vector.py:BitVector.bvshl", "hwtypes/bit_vector.py:BitVector.__getitem__", "hwtypes/bit_vector.py:Bit.ite", "hwtypes/smt_bit_vector.py:SMTBitVector.bvmul", "hwtypes/z3_bit_vector.py:z3BitVector.bvmul"]}
{"id": "C166", "title": "code of moves and exclusive ors is a net of parities", "statement": "Let a function use constants, slices, indexing, concatenation, extension, rotation and shifts by ints, ~, bitwise methods with an int, bvxor and bvxnor of two values, and ^, == and != of two bits. For given classes and widths of its inputs it raises on all inputs or on none; and if on none, every digit of every result is the parity of a set of input digits, or its inverse, that is the same for all inputs in simulation and for all assignments in the SMT and z3 families. So which digits of a result change depends only on which digits of the inputs change: checksums, Gray codes and scramblers written with these classes are affine.", "quantifier": "every such function, all classes, widths, inputs and assignments", "why_tests_cant": "functions, widths and inputs are unbounded; a test compares some changes of some inputs", "anchors": ["hwtypes/bit_vector.py:BitVector.bvxor", "hwtypes/bit_vector.py:BitVector.bvxnor", "hwtypes/bit_vector.py:Bit.__xor__", "hwtypes/bit_vector.py:Bit.__eq__", "hwtypes/bit_vector.py:BitVector.bvlshr", "hwtypes/bit_vector.py:BitVector.concat", "hwtypes/smt_bit_vector.py:SMTBitVector.bvxor", "hwtypes/z3_bit_vector.py:z3BitVector.bvxor"]}
{"id": "C167", "title": "bitwise code works on every part of its vectors separately", "statement": "Let a function over vectors of width n use constants, ~, bvand, bvor, bvxor, bvnand, bvnor, bvxnor with vectors or ints, ite and operations on bits. Run with the parts x[lo:lo+k] of its vectors, and the same digits of its constants, it raises the same exception, or its vectors are the parts [lo:lo+k] of those at width n and its bits the same bits: in simulation and under every assignment in the SMT and z3 families. So vectors can be cut anywhere and the results put together with concat, and n cases can be packed in one vector of width n.", "quantifier": "every such function, all widths and positions with 0 < k and lo + k <= n, every input and assignment", "why_tests_cant": "functions, widths, positions and inputs are unbounded; a test cuts some vectors at some places", "anchors": ["hwtypes/bit_vector.py:BitVector.bvand", "hwtypes/bit_vector.py:BitVector.bvor", "hwtypes/bit_vector.py:BitVector.bvxor", "hwtypes/bit_vector.py:BitVector.bvnot", "hwtypes/bit_vector.py:BitVector.__getitem__", "hwtypes/bit_vector.py:BitVector.concat", "hwtypes/bit_vector.py:Bit.ite", "hwtypes/smt_bit_vector.py:SMTBitVector.bvand", "hwtypes/z3_bit_vector.py:z3BitVector.bvand"]}
{"id": "C168", "title": "solvers decide whether two functions are equivalent", "statement": "Run two functions over the same free variables and compare an output of each with bveq, or with == for bits. The comparison is valid in the SMT family, and in the z3 family, exactly if in simulation both functions return on every input and the two outputs are equal vectors of one width (equal bits). An assignment under which the comparison is false, read back into the ports, is an input on which both simulations return and the outputs differ.", "quantifier": "every pair of functions, ports, outputs, simplifier and assignment", "why_tests_cant": "pairs of functions, widths and inputs are unbounded; a test compares some functions on some inputs", "anchors": ["hwtypes/bit_vector.py:BitVector.bveq", "hwtypes/bit_vector.py:Bit.__eq__", "hwtypes/smt_bit_vector.py:SMTBitVector.bveq", "hwtypes/smt_bit_vector.py:SMTBit.__eq__", "hwtypes/z3_bit_vector.py:z3BitVector.bveq", "hwtypes/z3_bit_vector.py:z3Bit.__eq__"]}
{"id": "C169", "title": "code of moves, ands and ors is monotone", "statement": "Let a function use constants, slices, indexing, concat, zext, sext, rotations and shifts by constants, bvand and bvor with ints or values, and & and | on bits. If every digit set in some inputs is also set in other inputs of the same classes and widths, then on both it raises the same exception, or every digit set in a value computed from the former is set in the value computed from the latter. With free variables, in the SMT and z3 families, an output bit true under an assignment is true under every assignment that sets more digits.", "quantifier": "every such function, all widths, every pair of inputs and of assignments", "why_tests_cant": "functions, widths and pairs of inputs are unbounded; a test compares some pairs", "anchors": ["hwtypes/bit_vector.py:BitVector.bvand", "hwtypes/bit_vector.py:BitVector.bvor", "hwtypes/bit_vector.py:BitVector.bvshl", "hwtypes/bit_vector.py:BitVector.bvlshr", "hwtypes/bit_vector.py:BitVector.bvashr", "hwtypes/bit_vector.py:BitVector.concat", "hwtypes/bit_vector.py:BitVector.sext", "hwtypes/bit_vector.py:BitVector.zext", "hwtypes/bit_vector.py:BitVector.__getitem__", "hwtypes/bit_vector.py:Bit.__and__", "hwtypes/bit_vector.py:Bit.__or__", "hwtypes/smt_bit_vector.py:SMTBitVector.bvand", "hwtypes/z3_bit_vector.py:z3BitVector.bvand"]}
{"id": "C170", "title": "De Morgan's laws hold for whole functions", "statement": "Let a function on vectors of one width use constants, ~, bvand, bvor, bvxor, bvnand, bvnor, bvxnor with ints or vectors, ite, and ~, &, |, ^, == and != on bits. Exchange in it and with or, nand with nor, xor with xnor, on bits xor and != with ==, invert its constants and swap the branches of every ite. On inverted inputs the new function raises if the old one raises on the inputs themselves, and otherwise every value it computes is the inverted value of the old one; in simulation, and in the SMT and z3 families under every assignment.", "quantifier": "every such function, all widths, every input and assignment", "why_tests_cant": "functions, widths and inputs are unbounded; a test checks the laws for some operators and values", "anchors": ["hwtypes/bit_vector.py:BitVector.bvnot", "hwtypes/bit_vector.py:BitVector.bvand", "hwtypes/bit_vector.py:BitVector.bvor", "hwtypes/bit_vector.py:BitVector.bvxor", "hwtypes/bit_vector.py:BitVector.bvnand", "hwtypes/bit_vector.py:BitVector.bvnor", "hwtypes/bit_vector.py:BitVector.bvxnor", "hwtypes/bit_vector.py:Bit.ite", "hwtypes/bit_vector.py:Bit.__and__", "hwtypes/bit_vector.py:Bit.__or__", "hwtypes/bit_vector.py:Bit.__invert__", "hwtypes/smt_bit_vector.py:SMTBitVector.bvand", "hwtypes/z3_bit_vector.py:z3BitVector.bvand"]}
