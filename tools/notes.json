{
 "C07": {
  "status": "partial",
  "note": "Vector shift amounts: proved in full. Int amounts: reduced modulo 2^n before shifting (C07_int_amount_partial); the naive claim x << k = x*2^k for every int k is refuted."
 },
 "C08": {
  "status": "partial",
  "note": "Proved for vector amounts and widths >= 1; width 0 raises ZeroDivisionError; int amounts are first reduced mod 2^n, so rotation by k mod n is refuted for int k >= 2^n."
 },
 "C12": {
  "status": "partial",
  "note": "bvsdiv/bvsrem floor instead of truncating: equal to SMT-LIB iff exact or same signs (C12_sdiv_iff); refuted in general with witnesses."
 },
 "C18": {
  "status": "partial",
  "note": "Proved for k >= 1; sext(0) raises ValueError for every vector (C18_zero_raises), so the full claim is refuted."
 },
 "C23": {
  "status": "partial",
  "note": "Operator = method, right ints and left ints proved for every operator and class, except int >> x on classes other than SIntVector, which computes x >> int (C23_rshift_swapped); refuted with a witness. Widths >= 1."
 },
 "C24": {
  "status": "partial",
  "note": "Right operand: proved in full. Left operand: comparisons and unsigned >> proved; every other reflected operator raises NameError (misspelled handler), C24_left_nameError / C24_left_refuted."
 },
 "C29": {
  "status": "partial",
  "note": "Polymorphic left operand with int, same-class or predefined-class right operand: proved for every operator, nested arbitrarily. Refuted: polymorphic right operand of >> on a BitVector (operands swapped), and ext(0). ext(k) proved for k >= 1. int() is proved to be the signed reading only if both branch classes are signed (C29_int), so it does not follow the selected branch (C29_int_refuted)."
 },
 "C69": {
  "status": "partial",
  "note": "Two vectors of any classes, vector and int/bool/sequence/object, Bit and bit-like: proved. Bit against vector: refuted (truth value one way, number the other)."
 },
 "C70": {
  "status": "partial",
  "note": "Operands unchanged: proved for all programs. Freshness: proved for programs that take no remainder by zero; x % 0 (bvurem, bvsrem) returns the operand object itself, refuted with a program."
 },
 "C71": {
  "status": "partial",
  "note": "False as stated: C71_refuted shows T[8.0] is accepted once T[8] is cached. C71_nonint_partial proves what holds: a non-int size is rejected or denotes the already existing class of the equal int; no class is ever made from it."
 },
 "C35": {
  "status": "partial",
  "note": "SMTBitVector's bvsdiv/bvsrem are SMT-LIB's (truncating; C35_symbolic_is_smtlib), the concrete ones floor; equal when the division is exact or the signs agree (C35_division_partial), refuted in general."
 },
 "C37": {
  "status": "partial",
  "note": "r <= 1 agrees with the concrete method; r >= 2 raises TypeError for every symbolic vector (C37_refuted)."
 },
 "C41": {
  "status": "partial",
  "note": "as_uint: proved in full. as_sint: proved for widths >= 2; width 1 raises AssertionError (C41_refuted)."
 },
 "C42": {
  "status": "partial",
  "note": "All operators proved except // by a negative divisor (SMT-LIB div is Euclidean, Python floors): refuted with a witness, C42_floordiv_partial for positive divisors."
 },
 "C43": {
  "status": "partial",
  "note": "Meaning of nested formulas: proved in full for every formula and assignment. Construction from a list: proved; from a one-shot iterator the argument check consumes the items and the result is And()/Or() of nothing (C43_generator_refuted)."
 },
 "C72": {
  "status": "partial",
  "note": "Refuted: sequences of another length, negative int() objects, empty slices, sext(0), repeat(r>=2), rotation by a vector, as_sint at width 1. Proved for construction and operators on the other argument kinds."
 },
 "C73": {
  "status": "partial",
  "note": "Int amounts 0 <= k <= n: proved; other int amounts raise ValueError (concretely reduced mod 2^n); vector amounts raise TypeError."
 },
 "C74": {
  "status": "partial",
  "note": "All operators with the bit on the left, &, |, ==, != with it on the right: proved. True ^ bit raises TypeError (no __rxor__), C74_rxor_refuted."
 },
 "C75": {
  "status": "partial",
  "note": "Proved for every operator but signed // and % and every operand kind and order, for widths >= 1 and the four predefined classes, except: SMTBit on the left of &, |, ^, ==, != (C75_bit_left_refuted: the symbolic result is a vector, the concrete one a Bit). Polymorphic symbolic classes: C115."
 },
 "C76": {
  "status": "partial",
  "note": "Proved for histories without explicit names of the form <prefix>_<digits> for that prefix. Refuted otherwise: after an explicitly named V_0 dies, the automatic V_0 is the same pysmt variable, or fails with TypeError if the sorts differ."
 },
 "C49": {
  "status": "partial",
  "note": "RNE, RTP, RTN, RTZ proved for every format with >= 2 exponent bits and every exact rational. RNA is mapped to gmpy2.RoundAwayZero: C49_RNA_actual proves it rounds away from zero always, C49_RNA_refuted that it is not round-to-nearest in any format."
 },
 "C44": {
  "status": "proved",
  "note": "Pattern direction for every format; value direction for >= 2 exponent bits (with 1 exponent bit gmpy2's exponent range is degenerate)."
 },
 "C46": {
  "status": "proved",
  "note": "NaN patterns of either sign decode to +inf."
 },
 "C77": {
  "status": "partial",
  "note": "Exact-then-round-once, special table and totality: proved for every mode. Named direction: proved for RNE, RTP, RTN, RTZ; mode RNA rounds away from zero (C77_RNA; see C49)."
 },
 "C82": {
  "status": "partial",
  "note": "fp_neg: proved. fp_abs proved except on -0 and NaNs, is_negative/is_positive except on zeros; refuted there: fp_abs(-0) is -0, fp_abs(NaN) inverts the sign bit, fp_is_negative(-0) is False."
 },
 "C87": {
  "status": "partial",
  "note": "Proved for RNE, RTP, RTN, RTZ; RNA rounds away from zero, refuted for every RNA format with 2 or more mantissa bits."
 },
 "C60": {
  "status": "partial",
  "note": "Proved for trees of Tuple, Sum, Product, TaggedUnion and Enum without class bodies and with modifiers on leaves only: simultaneous replacement, identity when A is absent, round trip with a fresh B. Refuted otherwise: AnonymousProduct.rebind raises TypeError, class bodies are lost, a modified Tuple becomes M(Tuple)[..]."
 },
 "C61": {
  "status": "partial",
  "note": "Simultaneous replacement and idempotence proved with the same limits as C60 (with keep_modifiers=True modifiers anywhere). Refuted without keep_modifiers for modified ADTs."
 },
 "C64": {
  "status": "partial",
  "note": "Proved for trees without AnonymousProduct and class bodies; refuted there: TypeError, and a class with methods is not returned unchanged."
 },
 "C65": {
  "status": "partial",
  "note": "Proved for trees without AnonymousProduct where no modifier occurs twice on a path; otherwise TypeError (C65_duplicates_partial, C65_duplicates_negation, C65_anon_negation)."
 },
 "C66": {
  "status": "partial",
  "note": "Class visitor proved for every type tree given a visitor with a method visit_leaf; the base class names its default visit_Leaf, so without an own handler any leaf raises AttributeError (C66_no_handler_negation). Instance visitor proved for values without None components whose sums hold an instance of one alternative; otherwise None is skipped (C66_none_negation) and the value visited twice (C66_twice_negation)."
 },
 "C88": {
  "status": "partial",
  "note": "Proved where A is not an ADT, B is a leaf, modifiers sit on leaves, and no field type containing a class to replace occurs inside another field of the same class. Refuted otherwise: Tuple[Tuple[A], Tuple[Tuple[A], A]] keeps an A; the modifier of a modified sibling is lost."
 },
 "C89": {
  "status": "partial",
  "note": "Proved for unmodified ADTs except that modifiers of vector and bit fields are dropped; any modified type raises NameError (get_modifier is not imported)."
 },
 "C50": {
  "status": "partial",
  "note": "Construction (all three outcomes, keywords in any order), item assignment and rejection without effect: proved. Typing invariant: proved for every history without slice assignments; refuted with them (t[0:1] = p stores the elements of p)."
 },
 "C51": {
  "status": "proved",
  "note": "Index, name, slice, history, frame; field names as in any class that can be built."
 },
 "C54": {
  "status": "proved",
  "note": "The invariant holds in every history. Construction asks for the exact class of an alternative, assignment for an instance."
 },
 "C55": {
  "status": "partial",
  "note": "Proved for every history of unions without a field called Match; with one no field reads as a match (C55_match_negation)."
 },
 "C52": {
  "status": "partial",
  "note": "Field-wise equality and hash compatibility: proved between fresh values and between assigned values. Refuted across: a value with an assigned field is unequal to a fresh value with equal fields (C52_assigned_negation, C52_reachable_negation), and it is not hashable (C52_unhashable_negation)."
 },
 "C56": {
  "status": "partial",
  "note": "Reflexive, symmetric, != is the negation: proved for all well-typed values. Transitivity and hash: proved where no part is of a proper subclass of the class of another part, respectively no Sum is compared with a TaggedUnion derived from it; refuted otherwise. Assumed: values that are not ADTs compare by an equivalence compatible with their hash. Hashes fit in 64 bits (C56_hash_word)."
 },
 "C58": {
  "status": "partial",
  "note": "Same-enum equality, auto values and member access: proved. Members of different enums are unequal when neither enum derives from the other; refuted for class F(E) with an equal value (C58_derived_negation)."
 },
 "C53": {
  "status": "partial",
  "note": "from_values on arbitrary dictionaries (wrong keys, ill-typed, count, acceptance in any order): proved. Round trip proved for unassigned tuples/products, for tagged unions not holding None, and as an iff for sums. Refuted: assigned tuples come back unequal; a held None, or a sum value that is an instance of two alternatives, raises ValueError; a sum assigned an instance of a proper subclass raises TypeError."
 },
 "C57": {
  "status": "partial",
  "note": "Exactly the values made of exactly the declared classes, each once, with the count; distinct under == given distinct member values and unrelated alternatives; complete when the classes have no proper subclasses. Refuted: fields that are modified enums (TypeError), members of derived enums are accepted but not enumerated. Leaves that are not ADTs are outside the claim."
 },
 "C59": {
  "status": "partial",
  "note": "Proved over all histories, with collection: same key same class, different keys different classes, cache=False fresh. Refuted in one respect: dunder attributes (__repr__, __init__, ...) of the body are not in the key, so such a statement can return a class without them (C59_dunder_negation). Not modelled: metaclass= in class statements, Enum[...]."
 },
 "C62": {
  "status": "partial",
  "note": "Proved over all histories for classes held by the program: interned, injective, recoverable, subclass of T and of every M(B), nothing else modified, M(M(T)) always raises. What type() accepts (C3, layout) is an arbitrary oracle; with C3 for it, C160 says when M(T) exists. Added refutation: issubclass with a modifier is not transitive (C62_derived_negation). make_modifier's own cache: C116."
 },
 "C90": {
  "status": "proved",
  "note": "Enum subclasses are excluded from the fields part, as stated in the theorem: an Enum class is its own field."
 },
 "C67": {
  "status": "partial",
  "note": "FrozenDict and OrderedFrozenDict each: equality characterised and equal objects hash equally, for every equivalence on keys and values and every hash. Mixed kinds refuted: FrozenDict equals OrderedFrozenDicts of any order, so == is not transitive and equal objects hash differently as soon as tuple hashes depend on order (C67_mixed_negation). Every key and value enters the hash: with collision-free object, tuple and set hashes, equal hashes mean equal dictionaries (C67_separates)."
 },
 "C68": {
  "status": "proved",
  "note": "For Product, TaggedUnion, Enum as claimed. Outside the claim: AnonymousProduct accepts the reserved ordinary names, from_fields accepts dunders (C68_other_negation). AnonymousProduct: C68_anonymous."
 },
 "C91": {
  "status": "partial",
  "note": "Proved for names other than cls, self, super and the name of the unbound class (C91_construct, C91_creates); refuted for those (C91_names_negation)."
 },
 "C92": {
  "status": "proved",
  "note": "z3 expressions are their sort and their meaning; the z3 API functions have the SMT-LIB meaning (assumed). Raw z3 expressions as the other operand are outside the statement (no concrete counterpart)."
 },
 "C93": {
  "status": "partial",
  "note": "Refuted (C93_refuted). Proved: bvsdiv is SMT-LIB truncation; exactly when it agrees with the concrete one; recomposition gives x, or x+y in the remaining cases (C93_recompose). The concrete family does recompose (C93_concrete)."
 },
 "C94": {
  "status": "partial",
  "note": "Proved for construction, indexing, item assignment, concat, zext, adc, non-empty step-1 slices, sext(k), k != 0, repeat(1); other cases characterised and refuted: empty and stepped slices, width 0, sext(0), repeat(k >= 2) (TypeError)."
 },
 "C95": {
  "status": "partial",
  "note": "Proved for a vector on the left (vectors of equal class family and convertible operands), comparisons in both orders, bits. Refuted: no reflected arithmetic (1 + x raises TypeError), x == None raises, a BitVector with a SIntVector on the right uses unsigned // % >>, bit & vector raises (C95_refuted and the theorems naming each case)."
 },
 "C96": {
  "status": "partial",
  "note": "Refuted (C96_refuted). Proved: vectors of one class (agrees with the concrete ite); every other combination characterised: TypeError for two classes, conversion of a non-vector, bits and plain values become unsigned vectors, negative ints lose their sign."
 },
 "C97": {
  "status": "proved",
  "note": "z3 constants are identified by name and sort (assumed); objects whose constructor raises die at once."
 },
 "C98": {
  "status": "partial",
  "note": "Refuted for histories where an explicit V_n name died (C98_refuted); proved when no explicit name has the automatic form."
 },
 "C99": {
  "status": "proved",
  "note": "For classes whose names determine their formats (all SMTFPVector[...]: C99_std). User classes of one name and width share their symbols and have no such interpretation (C99_same_name). pysmt's symbol and type rules are assumed."
 },
 "C100": {
  "status": "proved",
  "note": "Formulas over the methods with function symbols and ~ & |, variables of one class SMTFPVector[...]; conversions to vectors and ite are not part of the formulas."
 },
 "C101": {
  "status": "partial",
  "note": "Proved for all methods but fp_min, fp_max (their symbols are declared with one parameter: always an exception) and to_sbv (always KeyError); those are refuted."
 },
 "C102": {
  "status": "partial",
  "note": "Proved: != is the negation of ==, congruence. Refuted: every other relation, since any functions on patterns are an interpretation (C102_free, C102_laws_refuted)."
 },
 "C103": {
  "status": "partial",
  "note": "Proved: another width or kind of term raises TypeError, an int AttributeError. Refuted: another format (or a bit vector) of the same width is accepted (C103_format_refuted); C103_concrete shows FPVector refuses it."
 },
 "C104": {
  "status": "partial",
  "note": "The pattern part is proved (C104_int); that it stands for FPVector(n) is refuted with n = 1 (C104_number_refuted). A term is taken as it is or refused by its width (C104_term)."
 },
 "C105": {
  "status": "proved",
  "note": "From an empty symbol table; variables and to_ubv symbols of the same names are not considered."
 },
 "C106": {
  "status": "proved",
  "note": "C106_concrete_payload: FPVector, in contrast, forgets NaN payloads."
 },
 "C107": {
  "status": "partial",
  "note": "Proved against Real.sqrt for RNE, RTP, RTN, RTZ in every format with eb >= 2 (C107_rounded_partial); RNA rounds away from zero instead (C107_RNA), as C49. Special values, exact squares, no overflow, monotone: proved in every mode. Missing: nothing but the RNA mode, where the claim is false."
 },
 "C108": {
  "status": "partial",
  "note": "Proved in full: unnamed floats are fresh (C108_fresh), a live explicit name is refused (C108_live_name), two live floats share a variable only under a name FV<k> (C108_named_partial), all live values differ when the families use disjoint names and none of the form FV<k> (C108_independent_partial). Refuted otherwise: an explicit FV0 is accepted beside a live unnamed FV0; SMTBitVector and SMTFPVector of one name and width are one variable; of two widths, TypeError."
 },
 "C109": {
  "status": "partial",
  "note": "Everything but the last clause is proved. Refuted (C109_types_refuted): T[8, 7, RNE, 1] raises IndexError unless T[8, 7, RNE, True] is cached, then it returns that class; C109_types_partial says this is all that can happen."
 },
 "C110": {
  "status": "proved",
  "note": "Python's own linearisation of the bases, which may reject a class statement, is not modelled."
 },
 "C111": {
  "status": "partial",
  "note": "For formats whose exponents fit the significand (eb <= mb + 2): never NaN, zero or subnormal, exact value, sign, coverage (IEEE formats) and infinities of allow_inf proved. Finiteness with allow_inf=False is proved for RTZ and RTN and refuted for bfloat16 RNE; exponents longer than the significand are rounded first (refuted). The mantissa depends on mpfr_random alone."
 },
 "C112": {
  "status": "partial",
  "note": "Unambiguity and prefix-freeness proved under the stated assumption on pysmt's printer of single bits. The line clause is proved for formulas without an empty And or Or and refuted with one (C112_lines_refuted: it prints a blank line)."
 },
 "C113": {
  "status": "partial",
  "note": "Proved for BitVector, UIntVector, SIntVector (width >= 1) and Bit, with the draw as an argument (uniformity of randint itself is assumed). Refuted: NumVector.random gives a BitVector, SIntVector.random(0) raises ValueError."
 },
 "C114": {
  "status": "partial",
  "note": "Proved for the concrete family on classes and instances, and for instances of the symbolic families at widths other than 0. Refuted on classes of the symbolic families (C114_class_refuted): make_constant is a plain method there and raises, or makes a constant of the argument's class."
 },
 "C115": {
  "status": "partial",
  "note": "Proved for widths >= 1: a non-vector right operand, two vectors of any classes, ext, and the composition with ite as one term for all assignments; signed // and % against SMT-LIB's bvsdiv, bvsrem (C75 has the difference to the concrete family). Refuted: >> with a polymorphic right operand whose class derives from the left one's (C115_right_rshift_refuted: p >> x instead of x >> p where the unsigned alternative is selected)."
 },
 "C116": {
  "status": "proved",
  "note": "Over all histories of the class heap of C59, C62 extended with modifiers: interned while held or while one of its types is alive (the program need not hold the modifier), separation, and the composition with M(T). Names are compared as strings; what type() rejects as a class name is left out."
 },
 "C117": {
  "status": "proved",
  "note": "On both class heaps (bit vectors; algebraic types, there given that the class statement and the binding succeed, since what type() accepts is an oracle). name= and module= only set attributes outside the model."
 },
 "C118": {
  "status": "partial",
  "note": "Proved for bodies in which every property comes from its own TypedProperty(T) or from a decorator. Refuted for one TypedProperty(T) object used as decorator twice (C118_reuse_refuted): both attributes are the last declared one. Docstrings are modelled but nothing is claimed about them."
 },
 "C119": {
  "status": "partial",
  "note": "Proved for int, float, mpz, mpq, decimal strings, fraction strings and bit vectors, in the modes RNE, RTP, RTN, RTZ (RNA: C49). What gmpy2 reads a string as is taken as given. Other objects go through float(): right when their value is a float (C119_foreign_partial) and in FPVector[11,52,RNE,True] within range (C119_foreign_double); refuted for every other precision and for every directed mode (C119_foreign_refuted), and beyond the range of float OverflowError is raised whatever the format (C119_foreign_range)."
 },
 "C120": {
  "status": "partial",
  "note": "Exactness and round trip proved for eb <= 11, mb <= 52 (eb >= 2), NaN payload and sign apart; C120_rounded_partial gives the single rounding for larger formats in the modes RNE, RTP, RTN, RTZ. Refuted as a round trip for every larger format: C120_precision_refuted, C120_range_refuted."
 },
 "C121": {
  "status": "proved",
  "note": "Assumes that gmpy2.local_context(c) makes a copy of c current and restores the former context on every exit. Programs do not change the context of a class (T._ctx_) itself. random is with its draws as arguments. C121_undecorated shows a gmpy2 operation that does depend on the context."
 },
 "C122": {
  "status": "partial",
  "note": "Proved for values whose fields hold exactly the declared classes, in classes where the alternatives of every Sum have different names and at most one is a vector class. Refuted otherwise: C122_sum_refuted (Sum prints the number only, so BitVector[8](1) and BitVector[16](1) look alike); after an assignment a tuple prints as an equal-looking one that is not equal (C122_assigned_refuted). SIntVector[0], whose str raises IndexError, is left out."
 },
 "C123": {
  "status": "proved",
  "note": "C123_smt_verdict and C123_z3_verdict are the two equivalences, C123_same_verdict, C123_replay and C123_replay_z3 follow; C123_returns says when the runs raise. C123_smt gives the same exception, C123_z3 allows TypeError for InconsistentSizeError. Where the families are known to differ (out-of-range rotations and slices, sext by 0, ite on two classes: C31-C36, C93-C96) a circuit carries an assert, which all families check alike; signed division (the methods and the // and % of SIntVector) is left out, as is an int on the left of an operator, which z3BitVector does not accept."
 },
 "C124": {
  "status": "partial",
  "note": "False when a remainder by zero is taken: BitVector.bvurem then returns its operand itself, so assigning to the result changes the operand; the solvers return a new object and prove outputs which the simulation refutes (C124_refuted). Proved for programs that take no remainder by zero on any input (C124_smt_verdict_partial, C124_z3_verdict_partial), such as those without bvurem and % (C124_clean). The two solvers agree with each other without this condition (C124_same_verdict)."
 },
 "C125": {
  "status": "partial",
  "note": "False when a key is assigned to: after d[x] = 7; x[0] = 0 the entry is found under neither value (C125_refuted). Proved for programs that do not assign to an object while it is a key: with keys of one class and width for every hash function (C125_one_class_partial); with keys of any predefined classes and widths if the hashes of different keys differ (C125_mixed_partial), since otherwise == is asked and raises InconsistentSizeError (C125_collision)."
 },
 "C126": {
  "status": "partial",
  "note": "Proved for numbers that are not negative (C126_silent_partial, C126_operand_partial; C126_int_like has both directions). False for ints, which are cut without a warning as a comment in the code says (C126_int_refuted); for negative number-like objects: -200 silently becomes 56 in 8 bits (C126_negative_refuted); for a bit in a vector of width 0; and z3BitVector cuts number-like objects without a warning (C126_z3_refuted). C126_needless: vectors warn by width even if nothing is lost."
 },
 "C127": {
  "status": "proved",
  "note": "C127_decode is the equivalence, C127_decode_warnings names the warning, C127_encode is for formats with at least two exponent bits. The constructor replaces a NaN by an infinity in non-IEEE formats without a warning; it is not part of the claim."
 },
 "C128": {
  "status": "proved",
  "note": "C128_modular is the main theorem (any class, polymorphic ones included), C128_reference states it with the constructor, C128_identity and C128_exact are the consequences; C128_other_operators shows the restriction on the operators is needed."
 },
 "C129": {
  "status": "partial",
  "note": "False as stated: int >> vector computes vector >> int on the unsigned classes (C129_refuted, compare C23). Proved for all expressions without an int to the left of >> (SIntVector: without restriction), values and comparisons."
 },
 "C130": {
  "status": "partial",
  "note": "False of z3: an int to the left of a vector raises TypeError (C130_refuted). Proved: ring and bitwise code on SMTBitVector without restriction and identities valid (C130_smt, C130_smt_identity), all operators without overflow except signed // and % (C35); on z3 without ints to the left, and without signed // (C93)."
 },
 "C131": {
  "status": "partial",
  "note": "False for classes derived from a sized class, e.g. class Word(BitVector[8]) or Input(BitVector[8]): slices, concat, repeat, extensions, rotations, bvcomp and adc raise AttributeError (C131_refuted, C131_sized_subclass_raises, C131_adc_raises); Word(0x80) >> SIntVector[8](1) is a logical shift where BitVector[8](0x80) >> SIntVector[8](1) is arithmetic (C131_mixed_refuted); ite on Word and a subclass of it raises TypeError (C131_ite_refuted). Proved without restriction: arithmetic, bitwise and comparison methods, readings, operators (with the exact signedness rule); structural methods for classes U[n]. The hierarchies quantified over include that of every reachable state of the class heap of C31 (C131_hierarchy)."
 },
 "C132": {
  "status": "partial",
  "note": "The last clause is false: issubclass(B(A(T)), A) is False although A is among its modifiers (C132_refuted); only the last modifier applied is seen (C132_issubclass_partial, exact). Everything else is proved for every history."
 },
 "C133": {
  "status": "proved",
  "note": "For fields of one class, as stated; C133_mixed_refuted shows that the condition is needed. In the symbolic families a slice that is replaced must leave bits on both sides (empty symbolic vectors do not exist)."
 },
 "C134": {
  "status": "proved",
  "note": "C134_z3_handlers_refuted shows that the condition on the handlers is needed with z3. Loops are run with a bound on the turns; a run that ends does so with every larger bound (Ends.unique)."
 },
 "C135": {
  "status": "partial",
  "note": "False (C135_refuted): z3Bit has no __bool__, so `if b:` is taken for every z3 bit; and `if x:` is taken for every symbolic vector of both libraries, where Python falls back on __len__ (C135_vectors). True of SMTBit, for every function that lets TypeErrors through (C135_smt_bits_partial)."
 },
 "C136": {
  "status": "partial",
  "note": "False for a UIntVector and an SIntVector (C136_pair_refuted: a > b and b > a), for three vectors of BitVector and SIntVector (C136_cycle_refuted: a < b < c < a), for lists of several widths, where in raises (C136_find_widths_refuted), and for symbolic vectors in lists: with z3 in is always True and sorted reverses the list (C136_z3_refuted), with pysmt both raise (C136_smt_refuted). Proved otherwise; sorted is modelled as insertion sort, and C136_sorted shows that every stable sort returns the same list."
 },
 "C137": {
  "status": "partial",
  "note": "False of a function that takes a remainder by zero (C137_refuted): x.bvurem(d) is x itself iff d is zero, in simulation only, so `is` reveals the value, and assignments reach x. Proved of all functions whose simulation takes none, in particular of those without bvurem and % (C137_no_remainder); the two solvers agree in every case (C137_same_verdict). With z3 handlers must not tell InconsistentSizeError from TypeError, as in C134."
 },
 "C138": {
  "status": "partial",
  "note": "False for classes derived from a sized class (class Word(SMTBitVector[8])): slices, concat, zext, sext, ext, bvcomp, adc, as_sint, conversions to another width, and construction from a sequence raise AttributeError, and ite on such a class and a subclass of it raises TypeError (C138_smt_refuted, C138_smt_convert_refuted, C138_smt_ite_refuted, C138_z3_refuted, C138_z3_convert_refuted). Everything else is proved of every class, and everything of the classes U[n] of a user-defined U. An int shifted right by an unsigned symbolic vector is the finding of C23 (C138_smt_rrshift)."
 },
 "C139": {
  "status": "partial",
  "note": "False where a Boolean formula should stand for a bit: as the carry of adc and as an element of a list it raises TypeError, while the SMTBit of the same formula is taken (C139_adc_bool_refuted, C139_sequence_refuted); concat and item assignment take no formulas (C139_rejected); z3 vectors take Boolean formulas (C139_families_refuted). Signed // and % are left to C35. Formulas on the left of an operator are in the hands of pysmt."
 },
 "C140": {
  "status": "partial",
  "note": "False for ite of two expressions (TypeError, C140_ite_refuted) and for item assignment of a Boolean expression (ValueError, C140_setitem_refuted); z3Bit of a vector expression raises Z3Exception (C140_bit_raises). Signed // is left to C93. Expressions on the left of an operator are in the hands of z3."
 },
 "C141": {
  "status": "partial",
  "note": "// with a negative divisor is not Python's (C42); a signed vector is read as unsigned, unlike int() of the concrete one (C141_signed_refuted). Formulas on the left of an operator are in the hands of pysmt; the reflected methods are proved."
 },
 "C142": {
  "status": "partial",
  "note": "False for negative SIntVectors with pysmt (ValueError, NameError in reflected operators), for Y >> x on the unsigned classes (computes x >> Y), for Bit ^ SMTBit (TypeError), for z3 vectors on the right of an arithmetic operator (TypeError) and for operands of unequal signedness (C142_refuted). Vectors of another width are accepted instead of raising. // and % of SMTSIntVector and // of z3SIntVector are left to C34 and C93. ite and concat between families are not modelled."
 },
 "C143": {
  "status": "partial",
  "note": "Holds with pysmt unless a Sum compares a bit with a vector (C143_mixed_refuted). False with z3, where a z3Bit has no truth value of its own and counts as true: any two tuples of z3 vectors of the same widths compare equal, and no two sums are ever unequal (C143_z3_refuted). Sums that hold vectors of different widths raise InconsistentSizeError in every family (C143_width_refuted). Cyclic values are not modelled. Values with different numbers of fields are never equal (C143_length)."
 },
 "C144": {
  "status": "partial",
  "note": "Proved for pysmt (C144_smt_partial, C144_verdict_partial, C144_replay_partial) for functions without control flow that assert, before // and %, that no signed class is involved (the families differ there, C35), before ext(k) that k >= 1 (C29_ext_zero_refuted), before rotations and slices the bounds of C123. Tuples and bits as branches are C27, C37. False with z3, which raises TypeError for such a multiplexer (C144_z3_refuted)."
 },
 "C145": {
  "status": "partial",
  "note": "Proved (C145_meta_partial, C145_object_partial, C145_derived, C145_ite): recognised exactly if the metaclass provides _bitvector_t_ and the class the other two, for metaclasses that are not made by a class with _bitvector_t_. Refuted: a class made by type with its own _bitvector_t_ is never recognised, against the comment in the code (C145_comment_refuted); a metaclass made by a class with _bitvector_t_ (C145_tower_refuted); isinstance against any class derived from BitVectorProtocol accepts the objects of every protocol class, related or not (C145_structural_refuted)."
 },
 "C146": {
  "status": "proved",
  "note": "C146_rebind, C146_anon, C146_back. C146_merge_refuted shows that the last restriction is needed: a Sum of M(Tuple[X]) and M(Tuple)[X] has one alternative after a rebinding that replaces nothing."
 },
 "C147": {
  "status": "proved",
  "note": "C147_returns, C147_selects, C147_raises, C147_symbolic_*; C147_z3_one and C147_z3_both for z3Bit.ite with concrete branches. C147_classes_refuted: a concrete Bit does not select between symbolic vectors of different classes although both families have polymorphic classes. No protocol objects among the branches; nothing is claimed for z3 leaves under an SMTBit."
 },
 "C148": {
  "status": "proved",
  "note": "C148_smt_unrolled, C148_z3_unrolled, C148_smt_replay, C148_z3_replay, C148_all_depths, C148_smt_induction, C148_z3_induction; C148_induction_exact: both solvers accept the same induction proofs, those that hold in simulation from all states of the declared classes. The instructions are those of C123, with its asserts; names of inputs differ per cycle."
 },
 "C149": {
  "status": "partial",
  "note": "False in the last clause: enumerate() of a Tuple or Product class makes one object per field without fields and puts it into all yielded values, so an in-place change of it changes them all (C149_enumerate_refuted, C149_enumerate_shared, for every such class). Everything else is proved: C149_unreached, C149_touched, C149_construct, C149_copy, C149_enumerate, C149_enumerate_assigned_partial."
 },
 "C150": {
  "status": "partial",
  "note": "False for some names that are not reserved: a field unbound_t cannot be read on the class, and an Enum with such a member raises AttributeError in its class statement (C150_unbound_t_refuted); a field rebind or from_fields hides the method (C150_methods_refuted); with a field Match no field of a TaggedUnion can be read (C150_match_refuted); with a member name repr of every member raises (C150_name_refuted); an attribute of a base class hides the field of a Product (C150_inherited_refuted). Proved otherwise: C150_class_partial, C150_instance_partial, C150_undeclared, C150_stored, C150_properties, C150_reserved."
 },
 "C151": {
  "status": "partial",
  "note": "The restriction to rewritten functions that return is needed: a dead branch that raises is run by the rewritten function (C151_refuted). With it: C151_simulation, C151_smt, C151_z3, C151_returns and the verdict theorems. z3Bit.ite on two bits returns a vector of width 1, so bits are merged with & and | (C151_bits). Early returns: C153; loops: C154."
 },
 "C152": {
  "status": "partial",
  "note": "Round trip: C152_eval_partial, C152_equal_partial; it fails in exactly the other cases (C152_fails), with C152_product_refuted, C152_sum_refuted, C152_tagged_refuted, C152_empty_refuted. An expression is read off its text in one way (C152_unique). Modified classes count only if printed as one name; the expressions are those repr prints, not all of Python."
 },
 "C153": {
  "status": "partial",
  "note": "The restriction to rewritten functions that return is needed: returns of different types (or branches that are never taken and raise) cannot be merged (C153_refuted). With it: C153_simulation, C153_smt, C153_z3, C153_returns and the verdict theorems. What follows an if that returns is written into the branches that go on."
 },
 "C154": {
  "status": "partial",
  "note": "The restriction to unrolled functions that return is needed: a loop that changes the width of a variable stops in simulation but cannot be unrolled (C154_refuted, for every k). With it: C154_simulation, C154_smt, C154_z3, C154_returns, the verdict theorems, C154_stops, C154_returns_all (returning does not depend on k >= 1), C154_complete_partial. No break and no return inside a loop."
 },
 "C155": {
  "status": "partial",
  "note": "The restriction on rebind_type is needed: it turns Tuple[SIntVector[8]] into a tuple of BitVectors, so the function raises in simulation and not with the solver, and Sum[SIntVector[8]] the other way round (C155_rebind_refuted). For declared classes: C155_smt, C155_z3, C155_returns, C155_smt_verdict, C155_z3_verdict, C155_replay; what the statements do: C155_assign, C155_attribute, C155_tag, C155_sum. Hypothesis on issubclass: it holds between classes of one family exactly if it does between those of the concrete one (vecWorld_alike is an instance). C155_rebind_partial covers Tuples and Products; vectors are not changed in place."
 },
 "C156": {
  "status": "partial",
  "note": "False of the symbolic families: Python takes every z3Bit for true, so any(x), all(x) and v in x are True for every z3 vector (C156_z3_truth_refuted); with pysmt they raise TypeError (C156_smt_truth). v in x raises ValueError for an int other than 0 and 1 (C156_in_int), and sum(x) raises TypeError (C156_sum). The rest is proved."
 },
 "C157": {
  "status": "partial",
  "note": "False of Products (and of everything that holds one): the generated __new__ takes the fields, so copy.copy and copy.deepcopy raise TypeError (C157_product_refuted, C157_deep_product_refuted). False of values that hold an Enum member made with new_instruction(): the Auto object is copied, too, so the deep copy differs from the original (C157_auto_refuted). The rest is proved (C157_copy, C157_deepcopy, C157_deep_value, C157_deep_independent) for concrete vectors and bits and values without cycles."
 },
 "C158": {
  "status": "partial",
  "note": "Proved (C158_map_partial) while neither keys in the dictionary nor their parts are assigned to, and no class of a key or part of a key is a proper subclass of another; C158_hashable says which values can be keys. Both conditions are needed: a key that is assigned to, even the value it has, is lost, is not found with equal objects, and cannot be deleted (C158_assigned_refuted); a key with a vector changed in place is lost (C158_part_refuted); a TaggedUnion value equal to a Sum key is not found (C158_derived_refuted). Fields without parts compare as an equivalence with compatible hash; cyclic values are left out."
 },
 "C159": {
  "status": "partial",
  "note": "That methods are found where they were (C159_lookup) holds whenever T[n] can be made. That T[n] can be made, with the MRO of T in which every vector class is preceded by its sized version (C159_sized_partial), is proved if no class of the MRO names an ordinary class between two vector bases; without that it is false: C159_refuted gives nine classes, each accepted, whose last raises TypeError for every size. Sizing raises nothing but TypeError (C159_error), and a class statement raises TypeError or gives a class whose MRO keeps the order of its bases and their MROs (C159_class). Assumes that no metaclass overrides mro() and that __bases__ is never assigned; the proof is for the bit vector metaclass (FP and ADT classes use the same scheme but are not modelled here)."
 },
 "C31": {
  "status": "proved",
  "note": "Python's own linearisation of the bases, which may reject T[n], is the subject of C159."
 },
 "C160": {
  "status": "partial",
  "note": "The method resolution clause (C160_mro) and the kind and fields clause (C160_fields) are proved for whatever else type() may refuse. The first clause is false: C160_refuted (an enum with members deriving from an enum with members cannot be modified although its base can). C160_applies says exactly when M(T) exists: no class of T.__mro__ comes from M, and no enum with members in it derives from one with other members; it assumes that type() refuses only repeated bases and bases without an MRO. Members of different enum classes are taken to differ, as in C59."
 },
 "C161": {
  "status": "partial",
  "note": "C161_getitem: the MRO of T[...] without the bound classes is that of T, for every T and index. C161_statement_partial: the same of a class statement with fields and one unbound base. With several bases it is false: C161_mixin_refuted (class P(Product, M) with fields finds an attribute of Tuple and M in M, without fields in Tuple), C161_fields_refuted (class P(Product, AnonymousProduct) is accepted without fields and raises TypeError with them). That T[...] can be made is not claimed (C159 shows the same scheme failing with mixins). Attributes the bound classes do define (_fields_, _field_table_, and for anonymous products the fields, __new__ and __init__) are outside."
 },
 "C162": {
  "status": "proved",
  "note": "One theorem per circuit, each for the three families (InAll). Division by zero is included: the restoring divider and bvudiv/bvurem agree there too. Operands are two vectors of one of the four predefined classes and positive width."
 },
 "C163": {
  "status": "proved",
  "note": "One theorem per rewrite, each for the three families (InAll). Powers of two are exponents below the width, since an int operand must fit; the rotation is by an int k with k <= n; sext by m > 0."
 },
 "C164": {
  "status": "proved",
  "note": "Functions are the circuits of C123 restricted to instructions that move or invert digits (Moves); slices are non-empty and in range, sext is by k != 0 and rotations by 0 <= k <= n, as in C123. Inputs are bits and vectors of the predefined classes with positive width."
 },
 "C165": {
  "status": "proved",
  "note": "Functions are the circuits of C123 restricted to instructions in which carries only go up (Narrows). In the symbolic families the exceptions may differ in class, as in C123. C165_division_excluded shows that the restriction is needed."
 },
 "C166": {
  "status": "proved",
  "note": "Functions are the circuits of C123 restricted to the instructions in Linear. Inputs are bits and vectors of predefined classes. In the symbolic families the exceptions may differ in class, as in C123. C166_and_excluded shows that the restriction is needed."
 },
 "C167": {
  "status": "proved",
  "note": "Functions are the circuits of C123 restricted to the instructions in Bitwise. A bit as the operand of a vector method is excluded, since it stands for digit 0 only. In the symbolic families the exceptions may differ in class, as in C123. C167_addition_excluded shows that the restriction is needed."
 },
 "C168": {
  "status": "proved",
  "note": "Functions are the circuits of C123; Miter.both runs the second after the first with its values renumbered. For vectors the output of the second must not be a bit (bveq would convert it). Validity is that of the modelled terms; the solvers themselves are not modelled, as in C123."
 },
 "C169": {
  "status": "proved",
  "note": "Functions are the circuits of C123 restricted to the instructions in Raises. C169_excluded shows that inversions and sums must be left out. ite is left out because its condition is not monotone."
 },
 "C170": {
  "status": "proved",
  "note": "Functions are the circuits of C123 restricted to the instructions in Bitwise of C167. The dual may raise another exception than the original, because ite reads its branches in the other order. C170_mixed_excluded shows that a bit as the operand of a method of a vector must be left out."
 }
}