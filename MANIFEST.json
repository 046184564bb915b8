{
 "claims": [
  {
   "property": "C01",
   "status": "proved",
   "theorems": [
    "HW.C01_programs",
    "HW.C01_operations"
   ],
   "note": ""
  },
  {
   "property": "C02",
   "status": "proved",
   "theorems": [
    "HW.C02_construct",
    "HW.C02_construct_seq_bit"
   ],
   "note": ""
  },
  {
   "property": "C03",
   "status": "proved",
   "theorems": [
    "HW.C03_as_sint",
    "HW.C03_unique",
    "HW.C03_reconstruct",
    "HW.C03_int"
   ],
   "note": ""
  },
  {
   "property": "C04",
   "status": "proved",
   "theorems": [
    "HW.C04_bits",
    "HW.C04_bits_length",
    "HW.C04_bits_roundtrip",
    "HW.C04_seq2int_int2seq",
    "HW.C04_int2seq_seq2int",
    "HW.C04_binary_string",
    "HW.C04_as_binary_string",
    "HW.C04_as_bool_list"
   ],
   "note": ""
  },
  {
   "property": "C05",
   "status": "proved",
   "theorems": [
    "HW.C05_bvadd",
    "HW.C05_bvsub",
    "HW.C05_bvmul",
    "HW.C05_bvneg",
    "HW.C05_ring",
    "HW.C05_signed"
   ],
   "note": ""
  },
  {
   "property": "C06",
   "status": "proved",
   "theorems": [
    "HW.C06_bvnot",
    "HW.C06_bvand",
    "HW.C06_bvor",
    "HW.C06_bvxor",
    "HW.C06_bvnand",
    "HW.C06_bvnor",
    "HW.C06_bvxnor",
    "HW.C06_bits_determine"
   ],
   "note": ""
  },
  {
   "property": "C07",
   "status": "partial",
   "theorems": [
    "HW.C07_bvshl",
    "HW.C07_bvlshr",
    "HW.C07_bvashr",
    "HW.C07_overshift_num",
    "HW.C07_overshift",
    "HW.C07_int_amount_partial",
    "HW.C07_int_amount_refuted"
   ],
   "note": "Vector shift amounts: proved in full. Int amounts: reduced modulo 2^n before shifting (C07_int_amount_partial); the naive claim x << k = x*2^k for every int k is refuted."
  },
  {
   "property": "C08",
   "status": "partial",
   "theorems": [
    "HW.C08_bvror",
    "HW.C08_bvrol",
    "HW.C08_inverse",
    "HW.C08_zero_width",
    "HW.C08_int_amount_partial",
    "HW.C08_int_amount_refuted"
   ],
   "note": "Proved for vector amounts and widths >= 1; width 0 raises ZeroDivisionError; int amounts are first reduced mod 2^n, so rotation by k mod n is refuted for int k >= 2^n."
  },
  {
   "property": "C09",
   "status": "proved",
   "theorems": [
    "HW.C09_bveq",
    "HW.C09_bvne",
    "HW.C09_bvult",
    "HW.C09_bvule",
    "HW.C09_bvugt",
    "HW.C09_bvuge",
    "HW.C09_bvcomp",
    "HW.C09_trichotomy"
   ],
   "note": ""
  },
  {
   "property": "C10",
   "status": "proved",
   "theorems": [
    "HW.C10_bvslt",
    "HW.C10_bvsle",
    "HW.C10_bvsgt",
    "HW.C10_bvsge",
    "HW.C10_trichotomy"
   ],
   "note": ""
  },
  {
   "property": "C11",
   "status": "proved",
   "theorems": [
    "HW.C11_bvudiv",
    "HW.C11_bvurem",
    "HW.C11_identity"
   ],
   "note": ""
  },
  {
   "property": "C12",
   "status": "partial",
   "theorems": [
    "HW.C12_sdiv_partial",
    "HW.C12_srem_partial",
    "HW.C12_refuted",
    "HW.C12_by_zero_refuted",
    "HW.C12_sdiv_iff"
   ],
   "note": "bvsdiv/bvsrem floor instead of truncating: equal to SMT-LIB iff exact or same signs (C12_sdiv_iff); refuted in general with witnesses."
  },
  {
   "property": "C13",
   "status": "proved",
   "theorems": [
    "HW.C13_division",
    "HW.C13_by_zero"
   ],
   "note": ""
  },
  {
   "property": "C14",
   "status": "proved",
   "theorems": [
    "HW.C14_concat",
    "HW.C14_bits",
    "HW.C14_split",
    "HW.C14_assoc"
   ],
   "note": ""
  },
  {
   "property": "C15",
   "status": "proved",
   "theorems": [
    "HW.C15_index",
    "HW.C15_getitem",
    "HW.C15_slice_bits",
    "HW.C15_slice_elem",
    "HW.C15_slice_arith",
    "HW.C15_reverse"
   ],
   "note": ""
  },
  {
   "property": "C16",
   "status": "proved",
   "theorems": [
    "HW.C16_setitem",
    "HW.C16_setitem_errors",
    "HW.C16_history"
   ],
   "note": ""
  },
  {
   "property": "C17",
   "status": "proved",
   "theorems": [
    "HW.C17_zext"
   ],
   "note": ""
  },
  {
   "property": "C18",
   "status": "partial",
   "theorems": [
    "HW.C18_sext_partial",
    "HW.C18_negative",
    "HW.C18_zero_raises",
    "HW.C18_zero_refuted"
   ],
   "note": "Proved for k >= 1; sext(0) raises ValueError for every vector (C18_zero_raises), so the full claim is refuted."
  },
  {
   "property": "C19",
   "status": "proved",
   "theorems": [
    "HW.C19_repeat"
   ],
   "note": ""
  },
  {
   "property": "C20",
   "status": "proved",
   "theorems": [
    "HW.C20_adc",
    "HW.C20_chain"
   ],
   "note": ""
  },
  {
   "property": "C21",
   "status": "proved",
   "theorems": [
    "HW.C21_overflow"
   ],
   "note": ""
  },
  {
   "property": "C22",
   "status": "proved",
   "theorems": [
    "HW.C22_methods",
    "HW.C22_operators"
   ],
   "note": ""
  },
  {
   "property": "C23",
   "status": "partial",
   "theorems": [
    "HW.C23_methods",
    "HW.C23_right",
    "HW.C23_left_compare",
    "HW.C23_left_partial",
    "HW.C23_rshift_swapped",
    "HW.C23_left_refuted"
   ],
   "note": "Operator = method, right ints and left ints proved for every operator and class, except int >> x on classes other than SIntVector, which computes x >> int (C23_rshift_swapped); refuted with a witness. Widths >= 1."
  },
  {
   "property": "C24",
   "status": "partial",
   "theorems": [
    "HW.C24_right",
    "HW.C24_left_partial",
    "HW.C24_left_nameError",
    "HW.C24_left_refuted"
   ],
   "note": "Right operand: proved in full. Left operand: comparisons and unsigned >> proved; every other reflected operator raises NameError (misspelled handler), C24_left_nameError / C24_left_refuted."
  },
  {
   "property": "C25",
   "status": "proved",
   "theorems": [
    "HW.C25_operators"
   ],
   "note": ""
  },
  {
   "property": "C26",
   "status": "proved",
   "theorems": [
    "HW.C26_key_injective",
    "HW.C26_equal_hash",
    "HW.C26_cross_class"
   ],
   "note": ""
  },
  {
   "property": "C27",
   "status": "proved",
   "theorems": [
    "HW.C27_selects",
    "HW.C27_total",
    "HW.C27_vec",
    "HW.C27_vector_condition"
   ],
   "note": ""
  },
  {
   "property": "C28",
   "status": "proved",
   "theorems": [
    "HW.C28_errors",
    "HW.C28_condition_independent"
   ],
   "note": ""
  },
  {
   "property": "C29",
   "status": "partial",
   "theorems": [
    "HW.C29_operators",
    "HW.C29_ite_reading",
    "HW.C29_ite_operator",
    "HW.C29_class",
    "HW.C29_int",
    "HW.C29_int_refuted",
    "HW.C29_ext_partial",
    "HW.C29_right_rshift_refuted",
    "HW.C29_ext_zero_refuted",
    "HW.C29_vectors_partial",
    "HW.C29_widths"
   ],
   "note": "Polymorphic left operand with int, same-class or predefined-class right operand: proved for every operator, nested arbitrarily. Refuted: polymorphic right operand of >> on a BitVector (operands swapped), and ext(0). ext(k) proved for k >= 1. int() is proved to be the signed reading only if both branch classes are signed (C29_int), so it does not follow the selected branch (C29_int_refuted)."
  },
  {
   "property": "C30",
   "status": "proved",
   "theorems": [
    "HW.C30_construct",
    "HW.C30_right",
    "HW.C30_left",
    "HW.C30_invert",
    "HW.C30_arithmetic",
    "HW.C30_rejects"
   ],
   "note": ""
  },
  {
   "property": "C31",
   "status": "proved",
   "theorems": [
    "HW.C31_interned",
    "HW.C31_total",
    "HW.C31_injective",
    "HW.C31_rejects"
   ],
   "note": "Python's own linearisation of the bases, which may reject T[n], is the subject of C159."
  },
  {
   "property": "C32",
   "status": "proved",
   "theorems": [
    "HW.C32_monotone",
    "HW.C32_no_mixing",
    "HW.C32_class_statement"
   ],
   "note": ""
  },
  {
   "property": "C33",
   "status": "proved",
   "theorems": [
    "HW.C33_int",
    "HW.C33_structured"
   ],
   "note": ""
  },
  {
   "property": "C34",
   "status": "proved",
   "theorems": [
    "HW.C34_defined",
    "HW.C34_bvnot",
    "HW.C34_bvneg",
    "HW.C34_bvand",
    "HW.C34_bvor",
    "HW.C34_bvxor",
    "HW.C34_bvnand",
    "HW.C34_bvnor",
    "HW.C34_bvxnor",
    "HW.C34_bvshl",
    "HW.C34_bvlshr",
    "HW.C34_bvashr",
    "HW.C34_bvadd",
    "HW.C34_bvsub",
    "HW.C34_bvmul",
    "HW.C34_bvudiv",
    "HW.C34_bvurem",
    "HW.C34_bvcomp",
    "HW.C34_bveq",
    "HW.C34_bvne",
    "HW.C34_bvult",
    "HW.C34_bvule",
    "HW.C34_bvugt",
    "HW.C34_bvuge",
    "HW.C34_bvslt",
    "HW.C34_bvsle",
    "HW.C34_bvsgt",
    "HW.C34_bvsge"
   ],
   "note": ""
  },
  {
   "property": "C35",
   "status": "partial",
   "theorems": [
    "HW.C35_symbolic_is_smtlib",
    "HW.C35_division_partial",
    "HW.C35_refuted"
   ],
   "note": "SMTBitVector's bvsdiv/bvsrem are SMT-LIB's (truncating; C35_symbolic_is_smtlib), the concrete ones floor; equal when the division is exact or the signs agree (C35_division_partial), refuted in general."
  },
  {
   "property": "C36",
   "status": "proved",
   "theorems": [
    "HW.C36_construct",
    "HW.C36_index",
    "HW.C36_slice",
    "HW.C36_concat",
    "HW.C36_zext",
    "HW.C36_sext",
    "HW.C36_adc",
    "HW.C36_setitem"
   ],
   "note": ""
  },
  {
   "property": "C37",
   "status": "partial",
   "theorems": [
    "HW.C37_repeat_partial",
    "HW.C37_refuted"
   ],
   "note": "r <= 1 agrees with the concrete method; r >= 2 raises TypeError for every symbolic vector (C37_refuted)."
  },
  {
   "property": "C38",
   "status": "proved",
   "theorems": [
    "HW.C38_ite",
    "HW.C38_vector_ite",
    "HW.C38_selects"
   ],
   "note": ""
  },
  {
   "property": "C39",
   "status": "proved",
   "theorems": [
    "HW.C39_assignment_exists",
    "HW.C39_vector",
    "HW.C39_bit",
    "HW.C39_swap"
   ],
   "note": ""
  },
  {
   "property": "C40",
   "status": "proved",
   "theorems": [
    "HW.C40_fresh",
    "HW.C40_total",
    "HW.C40_distinct",
    "HW.C40_live_name",
    "HW.C40_explicit",
    "HW.C40_value_named",
    "HW.C40_bad_arguments"
   ],
   "note": ""
  },
  {
   "property": "C41",
   "status": "partial",
   "theorems": [
    "HW.C41_as_uint",
    "HW.C41_as_sint_partial",
    "HW.C41_refuted"
   ],
   "note": "as_uint: proved in full. as_sint: proved for widths >= 2; width 1 raises AssertionError (C41_refuted)."
  },
  {
   "property": "C42",
   "status": "partial",
   "theorems": [
    "HW.C42_ops",
    "HW.C42_floordiv_partial",
    "HW.C42_neg",
    "HW.C42_not_numbers",
    "HW.C42_refuted"
   ],
   "note": "All operators proved except // by a negative divisor (SMT-LIB div is Euclidean, Python floors): refuted with a witness, C42_floordiv_partial for positive divisors."
  },
  {
   "property": "C43",
   "status": "partial",
   "theorems": [
    "HW.C43_to_hwtypes",
    "HW.C43_total",
    "HW.C43_constructor_partial",
    "HW.C43_implies",
    "HW.C43_generator_refuted"
   ],
   "note": "Meaning of nested formulas: proved in full for every formula and assignment. Construction from a list: proved; from a one-shot iterator the argument check consumes the items and the result is And()/Or() of nothing (C43_generator_refuted)."
  },
  {
   "property": "C44",
   "status": "proved",
   "theorems": [
    "HW.C44_roundtrip",
    "HW.C44_nan",
    "HW.C44_object",
    "HW.C44_representable"
   ],
   "note": "Pattern direction for every format; value direction for >= 2 exponent bits (with 1 exponent bit gmpy2's exponent range is degenerate)."
  },
  {
   "property": "C45",
   "status": "proved",
   "theorems": [
    "HW.C45_fields",
    "HW.C45_value",
    "HW.C45_size"
   ],
   "note": ""
  },
  {
   "property": "C46",
   "status": "proved",
   "theorems": [
    "HW.C46_subnormal",
    "HW.C46_nan",
    "HW.C46_roundtrip",
    "HW.C46_objects"
   ],
   "note": "NaN patterns of either sign decode to +inf."
  },
  {
   "property": "C47",
   "status": "proved",
   "theorems": [
    "HW.C47_by_fields",
    "HW.C47_partition"
   ],
   "note": ""
  },
  {
   "property": "C48",
   "status": "proved",
   "theorems": [
    "HW.C48_numbers",
    "HW.C48_exact",
    "HW.C48_max",
    "HW.C48_min"
   ],
   "note": ""
  },
  {
   "property": "C49",
   "status": "partial",
   "theorems": [
    "HW.C49_rounds_partial",
    "HW.C49_RNA_actual",
    "HW.C49_sign",
    "HW.C49_RNA_refuted"
   ],
   "note": "RNE, RTP, RTN, RTZ proved for every format with >= 2 exponent bits and every exact rational. RNA is mapped to gmpy2.RoundAwayZero: C49_RNA_actual proves it rounds away from zero always, C49_RNA_refuted that it is not round-to-nearest in any format."
  },
  {
   "property": "C50",
   "status": "partial",
   "theorems": [
    "HW.C50_tuple",
    "HW.C50_product",
    "HW.C50_product_rejects",
    "HW.C50_unbound",
    "HW.C50_assign",
    "HW.C50_invariant_partial",
    "HW.C50_rejected",
    "HW.C50_slice_negation"
   ],
   "note": "Construction (all three outcomes, keywords in any order), item assignment and rejection without effect: proved. Typing invariant: proved for every history without slice assignments; refuted with them (t[0:1] = p stores the elements of p)."
  },
  {
   "property": "C51",
   "status": "proved",
   "theorems": [
    "HW.C51_index",
    "HW.C51_name",
    "HW.C51_history",
    "HW.C51_slice",
    "HW.C51_slice_accepts",
    "HW.C51_fresh",
    "HW.C51_frame"
   ],
   "note": "Index, name, slice, history, frame; field names as in any class that can be built."
  },
  {
   "property": "C52",
   "status": "partial",
   "theorems": [
    "HW.C52_eq_partial",
    "HW.C52_fieldwise_partial",
    "HW.C52_hash_partial",
    "HW.C52_unhashable_negation",
    "HW.C52_assigned_negation",
    "HW.C52_reachable_negation"
   ],
   "note": "Field-wise equality and hash compatibility: proved between fresh values and between assigned values. Refuted across: a value with an assigned field is unequal to a fresh value with equal fields (C52_assigned_negation, C52_reachable_negation), and it is not hashable (C52_unhashable_negation)."
  },
  {
   "property": "C53",
   "status": "partial",
   "theorems": [
    "HW.C53_keys",
    "HW.C53_illtyped",
    "HW.C53_count",
    "HW.C53_tuple",
    "HW.C53_tagged",
    "HW.C53_sum",
    "HW.C53_roundtrip_tuple",
    "HW.C53_roundtrip_fresh_partial",
    "HW.C53_roundtrip_assigned_negation",
    "HW.C53_roundtrip_sum_partial",
    "HW.C53_roundtrip_tagged_partial",
    "HW.C53_overlap_negation",
    "HW.C53_none_negation",
    "HW.C53_tagged_none_negation",
    "HW.C53_subclass_negation"
   ],
   "note": "from_values on arbitrary dictionaries (wrong keys, ill-typed, count, acceptance in any order): proved. Round trip proved for unassigned tuples/products, for tagged unions not holding None, and as an iff for sums. Refuted: assigned tuples come back unequal; a held None, or a sum value that is an instance of two alternatives, raises ValueError; a sum assigned an instance of a proper subclass raises TypeError."
  },
  {
   "property": "C54",
   "status": "proved",
   "theorems": [
    "HW.C54_construct",
    "HW.C54_assign",
    "HW.C54_read",
    "HW.C54_undeclared",
    "HW.C54_invariant"
   ],
   "note": "The invariant holds in every history. Construction asks for the exact class of an alternative, assignment for an instance."
  },
  {
   "property": "C55",
   "status": "partial",
   "theorems": [
    "HW.C55_construct",
    "HW.C55_assign",
    "HW.C55_history",
    "HW.C55_one_active_partial",
    "HW.C55_setitem",
    "HW.C55_by_type",
    "HW.C55_match_negation"
   ],
   "note": "Proved for every history of unions without a field called Match; with one no field reads as a match (C55_match_negation)."
  },
  {
   "property": "C56",
   "status": "partial",
   "theorems": [
    "HW.C56_refl",
    "HW.C56_symm",
    "HW.C56_ne",
    "HW.C56_trans_partial",
    "HW.C56_hash_partial",
    "HW.C56_hash_word",
    "HW.C56_trans_negation",
    "HW.C56_hash_negation"
   ],
   "note": "Reflexive, symmetric, != is the negation: proved for all well-typed values. Transitivity and hash: proved where no part is of a proper subclass of the class of another part, respectively no Sum is compared with a TaggedUnion derived from it; refuted otherwise. Assumed: values that are not ADTs compare by an equivalence compatible with their hash. Hashes fit in 64 bits (C56_hash_word)."
  },
  {
   "property": "C57",
   "status": "partial",
   "theorems": [
    "HW.C57_enumerate_partial",
    "HW.C57_calls",
    "HW.C57_typed",
    "HW.C57_complete_partial",
    "HW.C57_distinct",
    "HW.C57_plain",
    "HW.C57_modified_negation",
    "HW.C57_derived_negation"
   ],
   "note": "Exactly the values made of exactly the declared classes, each once, with the count; distinct under == given distinct member values and unrelated alternatives; complete when the classes have no proper subclasses. Refuted: fields that are modified enums (TypeError), members of derived enums are accepted but not enumerated. Leaves that are not ADTs are outside the claim."
  },
  {
   "property": "C58",
   "status": "partial",
   "theorems": [
    "HW.C58_same",
    "HW.C58_different_partial",
    "HW.C58_derived_negation",
    "HW.C58_auto",
    "HW.C58_access"
   ],
   "note": "Same-enum equality, auto values and member access: proved. Members of different enums are unequal when neither enum derives from the other; refuted for class F(E) with an equal value (C58_derived_negation)."
  },
  {
   "property": "C59",
   "status": "partial",
   "theorems": [
    "HW.C59_tuple",
    "HW.C59_sum",
    "HW.C59_anonymous",
    "HW.C59_getitem_injective",
    "HW.C59_class",
    "HW.C59_from_fields",
    "HW.C59_from_fields_kinds",
    "HW.C59_bound_item",
    "HW.C59_class_injective",
    "HW.C59_kinds_apart",
    "HW.C59_uncached",
    "HW.C59_fields",
    "HW.C59_dunder_negation",
    "HW.C59_dunder_ignored"
   ],
   "note": "Proved over all histories, with collection: same key same class, different keys different classes, cache=False fresh. Refuted in one respect: dunder attributes (__repr__, __init__, ...) of the body are not in the key, so such a statement can return a class without them (C59_dunder_negation). Not modelled: metaclass= in class statements, Enum[...]."
  },
  {
   "property": "C60",
   "status": "partial",
   "theorems": [
    "HW.C60_replaces_partial",
    "HW.C60_absent_partial",
    "HW.C60_back_partial",
    "HW.C60_enum",
    "HW.C60_anon_negation",
    "HW.C60_body_negation",
    "HW.C60_modified_negation"
   ],
   "note": "Proved for trees of Tuple, Sum, Product, TaggedUnion and Enum without class bodies and with modifiers on leaves only: simultaneous replacement, identity when A is absent, round trip with a fresh B. Refuted otherwise: AnonymousProduct.rebind raises TypeError, class bodies are lost, a modified Tuple becomes M(Tuple)[..]."
  },
  {
   "property": "C61",
   "status": "partial",
   "theorems": [
    "HW.C61_simultaneous_partial",
    "HW.C61_idempotent_partial",
    "HW.C61_modified_negation"
   ],
   "note": "Simultaneous replacement and idempotence proved with the same limits as C60 (with keep_modifiers=True modifiers anywhere). Refuted without keep_modifiers for modified ADTs."
  },
  {
   "property": "C62",
   "status": "partial",
   "theorems": [
    "HW.C62_interned",
    "HW.C62_injective",
    "HW.C62_recover",
    "HW.C62_subclass",
    "HW.C62_unmodified",
    "HW.C62_twice_error",
    "HW.C62_derived_negation"
   ],
   "note": "Proved over all histories for classes held by the program: interned, injective, recoverable, subclass of T and of every M(B), nothing else modified, M(M(T)) always raises. What type() accepts (C3, layout) is an arbitrary oracle; with C3 for it, C160 says when M(T) exists. Added refutation: issubclass with a modifier is not transitive (C62_derived_negation). make_modifier's own cache: C116."
  },
  {
   "property": "C63",
   "status": "proved",
   "theorems": [
    "HW.C63_wrap_unwrap",
    "HW.C63_unwrap_wrap",
    "HW.C63_wraps",
    "HW.C63_duplicates",
    "HW.C63_again",
    "HW.C63_unwrap_unmodified"
   ],
   "note": ""
  },
  {
   "property": "C64",
   "status": "partial",
   "theorems": [
    "HW.C64_strips_partial",
    "HW.C64_unmodified_partial",
    "HW.C64_anon_negation",
    "HW.C64_body_negation"
   ],
   "note": "Proved for trees without AnonymousProduct and class bodies; refuted there: TypeError, and a class with methods is not returned unchanged."
  },
  {
   "property": "C65",
   "status": "partial",
   "theorems": [
    "HW.C65_pushes_partial",
    "HW.C65_duplicates_partial",
    "HW.C65_duplicates_negation",
    "HW.C65_anon_negation"
   ],
   "note": "Proved for trees without AnonymousProduct where no modifier occurs twice on a path; otherwise TypeError (C65_duplicates_partial, C65_duplicates_negation, C65_anon_negation)."
  },
  {
   "property": "C66",
   "status": "partial",
   "theorems": [
    "HW.C66_visits",
    "HW.C66_leaves",
    "HW.C66_no_handler_negation",
    "HW.C66_instance_partial",
    "HW.C66_none_negation",
    "HW.C66_twice_negation",
    "HW.C66_instance_no_handler_negation"
   ],
   "note": "Class visitor proved for every type tree given a visitor with a method visit_leaf; the base class names its default visit_Leaf, so without an own handler any leaf raises AttributeError (C66_no_handler_negation). Instance visitor proved for values without None components whose sums hold an instance of one alternative; otherwise None is skipped (C66_none_negation) and the value visited twice (C66_twice_negation)."
  },
  {
   "property": "C67",
   "status": "partial",
   "theorems": [
    "HW.C67_lookup",
    "HW.C67_frozen",
    "HW.C67_ordered",
    "HW.C67_separates",
    "HW.C67_mixed",
    "HW.C67_mixed_negation"
   ],
   "note": "FrozenDict and OrderedFrozenDict each: equality characterised and equal objects hash equally, for every equivalence on keys and values and every hash. Mixed kinds refuted: FrozenDict equals OrderedFrozenDicts of any order, so == is not transitive and equal objects hash differently as soon as tuple hashes depend on order (C67_mixed_negation). Every key and value enters the hash: with collision-free object, tuple and set hashes, equal hashes mean equal dictionaries (C67_separates)."
  },
  {
   "property": "C68",
   "status": "proved",
   "theorems": [
    "HW.C68_class",
    "HW.C68_class_iff",
    "HW.C68_fields",
    "HW.C68_from_fields",
    "HW.C68_anonymous",
    "HW.C68_listed",
    "HW.C68_agree",
    "HW.C68_other_negation"
   ],
   "note": "For Product, TaggedUnion, Enum as claimed. Outside the claim: AnonymousProduct accepts the reserved ordinary names, from_fields accepts dunders (C68_other_negation). AnonymousProduct: C68_anonymous."
  },
  {
   "property": "C69",
   "status": "partial",
   "theorems": [
    "HW.C69_symmetric_partial",
    "HW.C69_refuted",
    "HW.C69_bit_vector"
   ],
   "note": "Two vectors of any classes, vector and int/bool/sequence/object, Bit and bit-like: proved. Bit against vector: refuted (truth value one way, number the other)."
  },
  {
   "property": "C70",
   "status": "partial",
   "theorems": [
    "HW.C70_operands_unchanged",
    "HW.C70_assignment_local_partial",
    "HW.C70_remainder_shared",
    "HW.C70_refuted"
   ],
   "note": "Operands unchanged: proved for all programs. Freshness: proved for programs that take no remainder by zero; x % 0 (bvurem, bvsrem) returns the operand object itself, refuted with a program."
  },
  {
   "property": "C71",
   "status": "partial",
   "theorems": [
    "HW.C71_refuted",
    "HW.C71_nonint_partial"
   ],
   "note": "False as stated: C71_refuted shows T[8.0] is accepted once T[8] is cached. C71_nonint_partial proves what holds: a non-int size is rejected or denotes the already existing class of the equal int; no class is ever made from it."
  },
  {
   "property": "C72",
   "status": "partial",
   "theorems": [
    "HW.C72_construct_partial",
    "HW.C72_operators_partial",
    "HW.C72_construct_refuted",
    "HW.C72_empty_slice_refuted",
    "HW.C72_sext_zero_refuted",
    "HW.C72_repeat_rotate_refuted",
    "HW.C72_as_sint_refuted"
   ],
   "note": "Refuted: sequences of another length, negative int() objects, empty slices, sext(0), repeat(r>=2), rotation by a vector, as_sint at width 1. Proved for construction and operators on the other argument kinds."
  },
  {
   "property": "C73",
   "status": "partial",
   "theorems": [
    "HW.C73_rotate_int",
    "HW.C73_rotate_object",
    "HW.C73_rotate_bool",
    "HW.C73_rotate_raises",
    "HW.C73_rotate_vector_refuted"
   ],
   "note": "Int amounts 0 <= k <= n: proved; other int amounts raise ValueError (concretely reduced mod 2^n); vector amounts raise TypeError."
  },
  {
   "property": "C74",
   "status": "partial",
   "theorems": [
    "HW.C74_left",
    "HW.C74_right_partial",
    "HW.C74_rxor_refuted",
    "HW.C74_invert",
    "HW.C74_bad_int",
    "HW.C74_foreign",
    "HW.C74_concrete"
   ],
   "note": "All operators with the bit on the left, &, |, ==, != with it on the right: proved. True ^ bit raises TypeError (no __rxor__), C74_rxor_refuted."
  },
  {
   "property": "C75",
   "status": "partial",
   "theorems": [
    "HW.C75_left",
    "HW.C75_right",
    "HW.C75_vectors",
    "HW.C75_compare_left",
    "HW.C75_compare_right",
    "HW.C75_compare_vectors",
    "HW.C75_bit_left_refuted"
   ],
   "note": "Proved for every operator but signed // and % and every operand kind and order, for widths >= 1 and the four predefined classes, except: SMTBit on the left of &, |, ^, ==, != (C75_bit_left_refuted: the symbolic result is a vector, the concrete one a Bit). Polymorphic symbolic classes: C115."
  },
  {
   "property": "C76",
   "status": "partial",
   "theorems": [
    "HW.C76_new_variable_partial",
    "HW.C76_alias_refuted",
    "HW.C76_sort_refuted"
   ],
   "note": "Proved for histories without explicit names of the form <prefix>_<digits> for that prefix. Refuted otherwise: after an explicitly named V_0 dies, the automatic V_0 is the same pysmt variable, or fails with TypeError if the sorts differ."
  },
  {
   "property": "C77",
   "status": "partial",
   "theorems": [
    "HW.C77_exact",
    "HW.C77_rounded_partial",
    "HW.C77_RNA",
    "HW.C77_special",
    "HW.C77_total"
   ],
   "note": "Exact-then-round-once, special table and totality: proved for every mode. Named direction: proved for RNE, RTP, RTN, RTZ; mode RNA rounds away from zero (C77_RNA; see C49)."
  },
  {
   "property": "C78",
   "status": "proved",
   "theorems": [
    "HW.C78_fma",
    "HW.C78_special"
   ],
   "note": ""
  },
  {
   "property": "C79",
   "status": "proved",
   "theorems": [
    "HW.C79_comm",
    "HW.C79_sub",
    "HW.C79_one",
    "HW.C79_zero",
    "HW.C79_self"
   ],
   "note": ""
  },
  {
   "property": "C80",
   "status": "proved",
   "theorems": [
    "HW.C80_construct",
    "HW.C80_operations"
   ],
   "note": ""
  },
  {
   "property": "C81",
   "status": "proved",
   "theorems": [
    "HW.C81_order",
    "HW.C81_nan",
    "HW.C81_trichotomy"
   ],
   "note": ""
  },
  {
   "property": "C82",
   "status": "partial",
   "theorems": [
    "HW.C82_neg",
    "HW.C82_abs_partial",
    "HW.C82_abs_refuted",
    "HW.C82_predicates_partial",
    "HW.C82_negative_zero_refuted"
   ],
   "note": "fp_neg: proved. fp_abs proved except on -0 and NaNs, is_negative/is_positive except on zeros; refuted there: fp_abs(-0) is -0, fp_abs(NaN) inverts the sign bit, fp_is_negative(-0) is False."
  },
  {
   "property": "C83",
   "status": "proved",
   "theorems": [
    "HW.C83_truncates",
    "HW.C83_raises",
    "HW.C83_integers"
   ],
   "note": ""
  },
  {
   "property": "C84",
   "status": "proved",
   "theorems": [
    "HW.C84_mismatch",
    "HW.C84_converts",
    "HW.C84_identity",
    "HW.C84_between",
    "HW.C84_vector"
   ],
   "note": ""
  },
  {
   "property": "C85",
   "status": "proved",
   "theorems": [
    "HW.C85_minmax",
    "HW.C85_nan"
   ],
   "note": ""
  },
  {
   "property": "C86",
   "status": "proved",
   "theorems": [
    "HW.C86_remainder",
    "HW.C86_special"
   ],
   "note": ""
  },
  {
   "property": "C87",
   "status": "partial",
   "theorems": [
    "HW.C87_integral_partial",
    "HW.C87_RNA",
    "HW.C87_RNA_refuted"
   ],
   "note": "Proved for RNE, RTP, RTN, RTZ; RNA rounds away from zero, refuted for every RNA format with 2 or more mantissa bits."
  },
  {
   "property": "C88",
   "status": "partial",
   "theorems": [
    "HW.C88_replaces_partial",
    "HW.C88_absent_partial",
    "HW.C88_self",
    "HW.C88_nested_negation",
    "HW.C88_modified_negation"
   ],
   "note": "Proved where A is not an ADT, B is a leaf, modifiers sit on leaves, and no field type containing a class to replace occurs inside another field of the same class. Refuted otherwise: Tuple[Tuple[A], Tuple[Tuple[A], A]] keeps an A; the modifier of a modified sibling is lost."
  },
  {
   "property": "C89",
   "status": "partial",
   "theorems": [
    "HW.C89_family_partial",
    "HW.C89_leaf",
    "HW.C89_modified_negation",
    "HW.C89_dropped_negation"
   ],
   "note": "Proved for unmodified ADTs except that modifiers of vector and bit fields are dropped; any modified type raises NameError (get_modifier is not imported)."
  },
  {
   "property": "C90",
   "status": "proved",
   "theorems": [
    "HW.C90_monotone",
    "HW.C90_anonymous",
    "HW.C90_product",
    "HW.C90_tagged",
    "HW.C90_fields",
    "HW.C90_derived_returns",
    "HW.C90_enum_returns",
    "HW.C90_derived"
   ],
   "note": "Enum subclasses are excluded from the fields part, as stated in the theorem: an Enum class is its own field."
  },
  {
   "property": "C91",
   "status": "partial",
   "theorems": [
    "HW.C91_construct",
    "HW.C91_creates",
    "HW.C91_names_negation"
   ],
   "note": "Proved for names other than cls, self, super and the name of the unbound class (C91_construct, C91_creates); refuted for those (C91_names_negation)."
  },
  {
   "property": "C92",
   "status": "proved",
   "theorems": [
    "HW.C92_defined",
    "HW.C92_bvnot",
    "HW.C92_bvneg",
    "HW.C92_bvand",
    "HW.C92_bvor",
    "HW.C92_bvxor",
    "HW.C92_bvnand",
    "HW.C92_bvnor",
    "HW.C92_bvxnor",
    "HW.C92_bvshl",
    "HW.C92_bvlshr",
    "HW.C92_bvashr",
    "HW.C92_bvadd",
    "HW.C92_bvsub",
    "HW.C92_bvmul",
    "HW.C92_bvudiv",
    "HW.C92_bvurem",
    "HW.C92_bvsrem",
    "HW.C92_bvrol",
    "HW.C92_bvror",
    "HW.C92_bvcomp",
    "HW.C92_bveq",
    "HW.C92_bvne",
    "HW.C92_bvult",
    "HW.C92_bvule",
    "HW.C92_bvugt",
    "HW.C92_bvuge",
    "HW.C92_bvslt",
    "HW.C92_bvsle",
    "HW.C92_bvsgt",
    "HW.C92_bvsge"
   ],
   "note": "z3 expressions are their sort and their meaning; the z3 API functions have the SMT-LIB meaning (assumed). Raw z3 expressions as the other operand are outside the statement (no concrete counterpart)."
  },
  {
   "property": "C93",
   "status": "partial",
   "theorems": [
    "HW.C93_sdiv_is_smtlib",
    "HW.C93_sdiv_partial",
    "HW.C93_sdiv_iff",
    "HW.C93_concrete",
    "HW.C93_recompose",
    "HW.C93_refuted"
   ],
   "note": "Refuted (C93_refuted). Proved: bvsdiv is SMT-LIB truncation; exactly when it agrees with the concrete one; recomposition gives x, or x+y in the remaining cases (C93_recompose). The concrete family does recompose (C93_concrete)."
  },
  {
   "property": "C94",
   "status": "partial",
   "theorems": [
    "HW.C94_construct",
    "HW.C94_width_zero",
    "HW.C94_index",
    "HW.C94_slice",
    "HW.C94_concat",
    "HW.C94_zext",
    "HW.C94_sext",
    "HW.C94_adc",
    "HW.C94_setitem",
    "HW.C94_repeat",
    "HW.C94_refuted"
   ],
   "note": "Proved for construction, indexing, item assignment, concat, zext, adc, non-empty step-1 slices, sext(k), k != 0, repeat(1); other cases characterised and refuted: empty and stepped slices, width 0, sext(0), repeat(k >= 2) (TypeError)."
  },
  {
   "property": "C95",
   "status": "partial",
   "theorems": [
    "HW.C95_right",
    "HW.C95_vectors_partial",
    "HW.C95_compare",
    "HW.C95_compare_right",
    "HW.C95_compare_left",
    "HW.C95_bits",
    "HW.C95_left_raises",
    "HW.C95_eq_none",
    "HW.C95_bit_vector",
    "HW.C95_mixed",
    "HW.C95_refuted"
   ],
   "note": "Proved for a vector on the left (vectors of equal class family and convertible operands), comparisons in both orders, bits. Refuted: no reflected arithmetic (1 + x raises TypeError), x == None raises, a BitVector with a SIntVector on the right uses unsigned // % >>, bit & vector raises (C95_refuted and the theorems naming each case)."
  },
  {
   "property": "C96",
   "status": "partial",
   "theorems": [
    "HW.C96_select",
    "HW.C96_classes",
    "HW.C96_convert",
    "HW.C96_bare",
    "HW.C96_bits",
    "HW.C96_ints",
    "HW.C96_vector_condition",
    "HW.C96_refuted"
   ],
   "note": "Refuted (C96_refuted). Proved: vectors of one class (agrees with the concrete ite); every other combination characterised: TypeError for two classes, conversion of a non-vector, bits and plain values become unsigned vectors, negative ints lose their sign."
  },
  {
   "property": "C97",
   "status": "proved",
   "theorems": [
    "HW.C97_total",
    "HW.C97_fresh",
    "HW.C97_distinct",
    "HW.C97_independent",
    "HW.C97_live_name",
    "HW.C97_explicit",
    "HW.C97_bad_arguments",
    "HW.C97_width0"
   ],
   "note": "z3 constants are identified by name and sort (assumed); objects whose constructor raises die at once."
  },
  {
   "property": "C98",
   "status": "partial",
   "theorems": [
    "HW.C98_new_constant_partial",
    "HW.C98_live_kept",
    "HW.C98_refuted"
   ],
   "note": "Refuted for histories where an explicit V_n name died (C98_refuted); proved when no explicit name has the automatic form."
  },
  {
   "property": "C99",
   "status": "proved",
   "theorems": [
    "HW.SmtFp.C99_sound",
    "HW.SmtFp.C99_std",
    "HW.SmtFp.C99_same_name"
   ],
   "note": "For classes whose names determine their formats (all SMTFPVector[...]: C99_std). User classes of one name and width share their symbols and have no such interpretation (C99_same_name). pysmt's symbol and type rules are assumed."
  },
  {
   "property": "C100",
   "status": "proved",
   "theorems": [
    "HW.SmtFp.C100_valid"
   ],
   "note": "Formulas over the methods with function symbols and ~ & |, variables of one class SMTFPVector[...]; conversions to vectors and ite are not part of the formulas."
  },
  {
   "property": "C101",
   "status": "partial",
   "theorems": [
    "HW.SmtFp.C101_returns_partial",
    "HW.SmtFp.C101_minmax_refuted",
    "HW.SmtFp.C101_to_sbv_refuted"
   ],
   "note": "Proved for all methods but fp_min, fp_max (their symbols are declared with one parameter: always an exception) and to_sbv (always KeyError); those are refuted."
  },
  {
   "property": "C102",
   "status": "partial",
   "theorems": [
    "HW.SmtFp.C102_ne_partial",
    "HW.SmtFp.C102_congruence_partial",
    "HW.SmtFp.C102_free",
    "HW.SmtFp.C102_laws_refuted"
   ],
   "note": "Proved: != is the negation of ==, congruence. Refuted: every other relation, since any functions on patterns are an interpretation (C102_free, C102_laws_refuted)."
  },
  {
   "property": "C103",
   "status": "partial",
   "theorems": [
    "HW.SmtFp.C103_concrete",
    "HW.SmtFp.C103_refused_partial",
    "HW.SmtFp.C103_format_refuted"
   ],
   "note": "Proved: another width or kind of term raises TypeError, an int AttributeError. Refuted: another format (or a bit vector) of the same width is accepted (C103_format_refuted); C103_concrete shows FPVector refuses it."
  },
  {
   "property": "C104",
   "status": "partial",
   "theorems": [
    "HW.SmtFp.C104_int",
    "HW.SmtFp.C104_term",
    "HW.SmtFp.C104_copy",
    "HW.SmtFp.C104_number_refuted"
   ],
   "note": "The pattern part is proved (C104_int); that it stands for FPVector(n) is refuted with n = 1 (C104_number_refuted). A term is taken as it is or refused by its width (C104_term)."
  },
  {
   "property": "C105",
   "status": "proved",
   "theorems": [
    "HW.SmtFp.C105_declare",
    "HW.SmtFp.C105_std",
    "HW.SmtFp.C105_unbound"
   ],
   "note": "From an empty symbol table; variables and to_ubv symbols of the same names are not considered."
  },
  {
   "property": "C106",
   "status": "proved",
   "theorems": [
    "HW.SmtFp.C106_roundtrip",
    "HW.SmtFp.C106_concrete_payload"
   ],
   "note": "C106_concrete_payload: FPVector, in contrast, forgets NaN payloads."
  },
  {
   "property": "C107",
   "status": "partial",
   "theorems": [
    "HW.C107_rounded_partial",
    "HW.C107_RNA",
    "HW.C107_special",
    "HW.C107_total",
    "HW.C107_exact",
    "HW.C107_finite",
    "HW.C107_mono"
   ],
   "note": "Proved against Real.sqrt for RNE, RTP, RTN, RTZ in every format with eb >= 2 (C107_rounded_partial); RNA rounds away from zero instead (C107_RNA), as C49. Special values, exact squares, no overflow, monotone: proved in every mode. Missing: nothing but the RNA mode, where the claim is false."
  },
  {
   "property": "C108",
   "status": "partial",
   "theorems": [
    "HW.C108_fresh",
    "HW.C108_named_partial",
    "HW.C108_live_name",
    "HW.C108_independent_partial",
    "HW.C108_automatic_refuted",
    "HW.C108_families_refuted",
    "HW.C108_width_refuted"
   ],
   "note": "Proved in full: unnamed floats are fresh (C108_fresh), a live explicit name is refused (C108_live_name), two live floats share a variable only under a name FV<k> (C108_named_partial), all live values differ when the families use disjoint names and none of the form FV<k> (C108_independent_partial). Refuted otherwise: an explicit FV0 is accepted beside a live unnamed FV0; SMTBitVector and SMTFPVector of one name and width are one variable; of two widths, TypeError."
  },
  {
   "property": "C109",
   "status": "partial",
   "theorems": [
    "HW.FpCls.C109_interned",
    "HW.FpCls.C109_total",
    "HW.FpCls.C109_injective",
    "HW.FpCls.C109_rejects",
    "HW.FpCls.C109_types_refuted",
    "HW.FpCls.C109_types_partial"
   ],
   "note": "Everything but the last clause is proved. Refuted (C109_types_refuted): T[8, 7, RNE, 1] raises IndexError unless T[8, 7, RNE, True] is cached, then it returns that class; C109_types_partial says this is all that can happen."
  },
  {
   "property": "C110",
   "status": "proved",
   "theorems": [
    "HW.FpCls.C110_monotone",
    "HW.FpCls.C110_no_mixing",
    "HW.FpCls.C110_class_statement"
   ],
   "note": "Python's own linearisation of the bases, which may reject a class statement, is not modelled."
  },
  {
   "property": "C111",
   "status": "partial",
   "theorems": [
    "HW.C111_value",
    "HW.C111_finite_partial",
    "HW.C111_class",
    "HW.C111_infinite",
    "HW.C111_covers",
    "HW.C111_finite_refuted",
    "HW.C111_exponent_refuted"
   ],
   "note": "For formats whose exponents fit the significand (eb <= mb + 2): never NaN, zero or subnormal, exact value, sign, coverage (IEEE formats) and infinities of allow_inf proved. Finiteness with allow_inf=False is proved for RTZ and RTN and refuted for bfloat16 RNE; exponents longer than the significand are rounded first (refuted). The mantissa depends on mpfr_random alone."
  },
  {
   "property": "C112",
   "status": "partial",
   "theorems": [
    "HW.C112_unambiguous",
    "HW.C112_prefix_free",
    "HW.C112_lines_partial",
    "HW.C112_lines_refuted"
   ],
   "note": "Unambiguity and prefix-freeness proved under the stated assumption on pysmt's printer of single bits. The line clause is proved for formulas without an empty And or Or and refuted with one (C112_lines_refuted: it prints a blank line)."
  },
  {
   "property": "C113",
   "status": "partial",
   "theorems": [
    "HW.C113_uniform_unsigned",
    "HW.C113_uniform_signed",
    "HW.C113_refuted",
    "HW.C113_negative",
    "HW.C113_bit"
   ],
   "note": "Proved for BitVector, UIntVector, SIntVector (width >= 1) and Bit, with the draw as an argument (uniformity of randint itself is assumed). Refuted: NumVector.random gives a BitVector, SIntVector.random(0) raises ValueError."
  },
  {
   "property": "C114",
   "status": "partial",
   "theorems": [
    "HW.C114_concrete",
    "HW.C114_smt_partial",
    "HW.C114_z3_partial",
    "HW.C114_class_refuted"
   ],
   "note": "Proved for the concrete family on classes and instances, and for instances of the symbolic families at widths other than 0. Refuted on classes of the symbolic families (C114_class_refuted): make_constant is a plain method there and raises, or makes a constant of the argument's class."
  },
  {
   "property": "C115",
   "status": "partial",
   "theorems": [
    "HW.C115_operators",
    "HW.C115_vectors_partial",
    "HW.C115_widths",
    "HW.C115_unusable",
    "HW.C115_right_partial",
    "HW.C115_concrete_partial",
    "HW.C115_ite_operator",
    "HW.C115_ext",
    "HW.C115_right_rshift_refuted",
    "HW.C115_class"
   ],
   "note": "Proved for widths >= 1: a non-vector right operand, two vectors of any classes, ext, and the composition with ite as one term for all assignments; signed // and % against SMT-LIB's bvsdiv, bvsrem (C75 has the difference to the concrete family). Refuted: >> with a polymorphic right operand whose class derives from the left one's (C115_right_rshift_refuted: p >> x instead of x >> p where the unsigned alternative is selected)."
  },
  {
   "property": "C116",
   "status": "proved",
   "theorems": [
    "HW.C116_interned",
    "HW.C116_distinct",
    "HW.C116_type",
    "HW.C116_types_distinct"
   ],
   "note": "Over all histories of the class heap of C59, C62 extended with modifiers: interned while held or while one of its types is alive (the program need not hold the modifier), separation, and the composition with M(T). Names are compared as strings; what type() rejects as a class name is left out."
  },
  {
   "property": "C117",
   "status": "proved",
   "theorems": [
    "HW.C117_vector",
    "HW.C117_vector_bound",
    "HW.C117_vector_distinct",
    "HW.C117_adt",
    "HW.C117_adt_distinct"
   ],
   "note": "On both class heaps (bit vectors; algebraic types, there given that the class statement and the binding succeed, since what type() accepts is an oracle). name= and module= only set attributes outside the model."
  },
  {
   "property": "C118",
   "status": "partial",
   "theorems": [
    "HW.C118_properties_partial",
    "HW.C118_body",
    "HW.C118_reuse_refuted"
   ],
   "note": "Proved for bodies in which every property comes from its own TypedProperty(T) or from a decorator. Refuted for one TypedProperty(T) object used as decorator twice (C118_reuse_refuted): both attributes are the last declared one. Docstrings are modelled but nothing is claimed about them."
  },
  {
   "property": "C119",
   "status": "partial",
   "theorems": [
    "HW.C119_numbers_partial",
    "HW.C119_vectors_partial",
    "HW.C119_foreign_partial",
    "HW.C119_foreign_range",
    "HW.C119_foreign_double",
    "HW.C119_foreign_refuted",
    "HW.C119_raises"
   ],
   "note": "Proved for int, float, mpz, mpq, decimal strings, fraction strings and bit vectors, in the modes RNE, RTP, RTN, RTZ (RNA: C49). What gmpy2 reads a string as is taken as given. Other objects go through float(): right when their value is a float (C119_foreign_partial) and in FPVector[11,52,RNE,True] within range (C119_foreign_double); refuted for every other precision and for every directed mode (C119_foreign_refuted), and beyond the range of float OverflowError is raised whatever the format (C119_foreign_range)."
  },
  {
   "property": "C120",
   "status": "partial",
   "theorems": [
    "HW.C120_exact",
    "HW.C120_roundtrip",
    "HW.C120_rounded_partial",
    "HW.C120_precision_refuted",
    "HW.C120_range_refuted"
   ],
   "note": "Exactness and round trip proved for eb <= 11, mb <= 52 (eb >= 2), NaN payload and sign apart; C120_rounded_partial gives the single rounding for larger formats in the modes RNE, RTP, RTN, RTZ. Refuted as a round trip for every larger format: C120_precision_refuted, C120_range_refuted."
  },
  {
   "property": "C121",
   "status": "proved",
   "theorems": [
    "HW.C121_call",
    "HW.C121_program",
    "HW.C121_undecorated"
   ],
   "note": "Assumes that gmpy2.local_context(c) makes a copy of c current and restores the former context on every exit. Programs do not change the context of a class (T._ctx_) itself. random is with its draws as arguments. C121_undecorated shows a gmpy2 operation that does depend on the context."
  },
  {
   "property": "C122",
   "status": "partial",
   "theorems": [
    "HW.C122_repr_partial",
    "HW.C122_str_partial",
    "HW.C122_equal_partial",
    "HW.C122_class",
    "HW.C122_vector",
    "HW.C122_vector_str",
    "HW.C122_sum_refuted",
    "HW.C122_assigned_refuted"
   ],
   "note": "Proved for values whose fields hold exactly the declared classes, in classes where the alternatives of every Sum have different names and at most one is a vector class. Refuted otherwise: C122_sum_refuted (Sum prints the number only, so BitVector[8](1) and BitVector[16](1) look alike); after an assignment a tuple prints as an equal-looking one that is not equal (C122_assigned_refuted). SIntVector[0], whose str raises IndexError, is left out."
  },
  {
   "property": "C123",
   "status": "proved",
   "theorems": [
    "HW.C123_smt",
    "HW.C123_z3",
    "HW.C123_smt_verdict",
    "HW.C123_z3_verdict",
    "HW.C123_same_verdict",
    "HW.C123_replay",
    "HW.C123_replay_z3",
    "HW.C123_returns"
   ],
   "note": "C123_smt_verdict and C123_z3_verdict are the two equivalences, C123_same_verdict, C123_replay and C123_replay_z3 follow; C123_returns says when the runs raise. C123_smt gives the same exception, C123_z3 allows TypeError for InconsistentSizeError. Where the families are known to differ (out-of-range rotations and slices, sext by 0, ite on two classes: C31-C36, C93-C96) a circuit carries an assert, which all families check alike; signed division (the methods and the // and % of SIntVector) is left out, as is an int on the left of an operator, which z3BitVector does not accept."
  },
  {
   "property": "C124",
   "status": "partial",
   "theorems": [
    "HW.C124_smt_partial",
    "HW.C124_z3_partial",
    "HW.C124_smt_verdict_partial",
    "HW.C124_z3_verdict_partial",
    "HW.C124_same_verdict",
    "HW.C124_clean",
    "HW.C124_refuted",
    "HW.C124_separate",
    "HW.C124_shared"
   ],
   "note": "False when a remainder by zero is taken: BitVector.bvurem then returns its operand itself, so assigning to the result changes the operand; the solvers return a new object and prove outputs which the simulation refutes (C124_refuted). Proved for programs that take no remainder by zero on any input (C124_smt_verdict_partial, C124_z3_verdict_partial), such as those without bvurem and % (C124_clean). The two solvers agree with each other without this condition (C124_same_verdict)."
  },
  {
   "property": "C125",
   "status": "partial",
   "theorems": [
    "HW.C125_one_class_partial",
    "HW.C125_mixed_partial",
    "HW.C125_collision",
    "HW.C125_refuted"
   ],
   "note": "False when a key is assigned to: after d[x] = 7; x[0] = 0 the entry is found under neither value (C125_refuted). Proved for programs that do not assign to an object while it is a key: with keys of one class and width for every hash function (C125_one_class_partial); with keys of any predefined classes and widths if the hashes of different keys differ (C125_mixed_partial), since otherwise == is asked and raises InconsistentSizeError (C125_collision)."
  },
  {
   "property": "C126",
   "status": "partial",
   "theorems": [
    "HW.C126_silent_partial",
    "HW.C126_operand_partial",
    "HW.C126_operand_vector",
    "HW.C126_int_like",
    "HW.C126_int_refuted",
    "HW.C126_negative_refuted",
    "HW.C126_width_zero_refuted",
    "HW.C126_needless",
    "HW.C126_smt",
    "HW.C126_z3_partial",
    "HW.C126_z3_refuted"
   ],
   "note": "Proved for numbers that are not negative (C126_silent_partial, C126_operand_partial; C126_int_like has both directions). False for ints, which are cut without a warning as a comment in the code says (C126_int_refuted); for negative number-like objects: -200 silently becomes 56 in 8 bits (C126_negative_refuted); for a bit in a vector of width 0; and z3BitVector cuts number-like objects without a warning (C126_z3_refuted). C126_needless: vectors warn by width even if nothing is lost."
  },
  {
   "property": "C127",
   "status": "proved",
   "theorems": [
    "HW.C127_decode_warnings",
    "HW.C127_decode",
    "HW.C127_encode"
   ],
   "note": "C127_decode is the equivalence, C127_decode_warnings names the warning, C127_encode is for formats with at least two exponent bits. The constructor replaces a NaN by an infinity in non-IEEE formats without a warning; it is not part of the claim."
  },
  {
   "property": "C128",
   "status": "proved",
   "theorems": [
    "HW.C128_modular",
    "HW.C128_reference",
    "HW.C128_identity",
    "HW.C128_exact",
    "HW.C128_other_operators"
   ],
   "note": "C128_modular is the main theorem (any class, polymorphic ones included), C128_reference states it with the constructor, C128_identity and C128_exact are the consequences; C128_other_operators shows the restriction on the operators is needed."
  },
  {
   "property": "C129",
   "status": "partial",
   "theorems": [
    "HW.C129_exact_partial",
    "HW.C129_compare_partial",
    "HW.C129_refuted"
   ],
   "note": "False as stated: int >> vector computes vector >> int on the unsigned classes (C129_refuted, compare C23). Proved for all expressions without an int to the left of >> (SIntVector: without restriction), values and comparisons."
  },
  {
   "property": "C130",
   "status": "partial",
   "theorems": [
    "HW.C130_smt",
    "HW.C130_smt_identity",
    "HW.C130_smt_exact_partial",
    "HW.C130_z3_partial",
    "HW.C130_z3_exact_partial",
    "HW.C130_refuted"
   ],
   "note": "False of z3: an int to the left of a vector raises TypeError (C130_refuted). Proved: ring and bitwise code on SMTBitVector without restriction and identities valid (C130_smt, C130_smt_identity), all operators without overflow except signed // and % (C35); on z3 without ints to the left, and without signed // (C93)."
  },
  {
   "property": "C131",
   "status": "partial",
   "theorems": [
    "HW.Der.C131_methods",
    "HW.Der.C131_comparisons",
    "HW.Der.C131_readings",
    "HW.Der.C131_structure_partial",
    "HW.Der.C131_sized_subclass_raises",
    "HW.Der.C131_adc_partial",
    "HW.Der.C131_adc_raises",
    "HW.Der.C131_operators",
    "HW.Der.C131_operators_int_partial",
    "HW.Der.C131_operators_raise",
    "HW.Der.C131_rrshift",
    "HW.Der.C131_ite",
    "HW.Der.C131_refuted",
    "HW.Der.C131_mixed_refuted",
    "HW.Der.C131_ite_refuted",
    "HW.C131_cached",
    "HW.C131_hierarchy"
   ],
   "note": "False for classes derived from a sized class, e.g. class Word(BitVector[8]) or Input(BitVector[8]): slices, concat, repeat, extensions, rotations, bvcomp and adc raise AttributeError (C131_refuted, C131_sized_subclass_raises, C131_adc_raises); Word(0x80) >> SIntVector[8](1) is a logical shift where BitVector[8](0x80) >> SIntVector[8](1) is arithmetic (C131_mixed_refuted); ite on Word and a subclass of it raises TypeError (C131_ite_refuted). Proved without restriction: arithmetic, bitwise and comparison methods, readings, operators (with the exact signedness rule); structural methods for classes U[n]. The hierarchies quantified over include that of every reachable state of the class heap of C31 (C131_hierarchy)."
  },
  {
   "property": "C132",
   "status": "partial",
   "theorems": [
    "HW.C132_applied",
    "HW.C132_nodup",
    "HW.C132_unwrap",
    "HW.C132_determined",
    "HW.C132_issubclass_partial",
    "HW.C132_refuted"
   ],
   "note": "The last clause is false: issubclass(B(A(T)), A) is False although A is among its modifiers (C132_refuted); only the last modifier applied is seen (C132_issubclass_partial, exact). Everything else is proved for every history."
  },
  {
   "property": "C133",
   "status": "proved",
   "theorems": [
    "HW.C133_layout",
    "HW.C133_fields",
    "HW.C133_repack",
    "HW.C133_update",
    "HW.C133_smt",
    "HW.C133_z3",
    "HW.C133_update_symbolic",
    "HW.C133_mixed_refuted"
   ],
   "note": "For fields of one class, as stated; C133_mixed_refuted shows that the condition is needed. In the symbolic families a slice that is replaced must leave bits on both sides (empty symbolic vectors do not exist)."
  },
  {
   "property": "C134",
   "status": "proved",
   "theorems": [
    "HW.C134_isBit",
    "HW.C134_smt",
    "HW.C134_z3",
    "HW.C134_z3_handlers_refuted",
    "HW.C134_values_unseen",
    "HW.C134_verdict"
   ],
   "note": "C134_z3_handlers_refuted shows that the condition on the handlers is needed with z3. Loops are run with a bound on the turns; a run that ends does so with every larger bound (Ends.unique)."
  },
  {
   "property": "C135",
   "status": "partial",
   "theorems": [
    "HW.C135_smt_bits_partial",
    "HW.C135_vectors",
    "HW.C135_refuted"
   ],
   "note": "False (C135_refuted): z3Bit has no __bool__, so `if b:` is taken for every z3 bit; and `if x:` is taken for every symbolic vector of both libraries, where Python falls back on __len__ (C135_vectors). True of SMTBit, for every function that lets TypeErrors through (C135_smt_bits_partial)."
  },
  {
   "property": "C136",
   "status": "partial",
   "theorems": [
    "HW.C136_compare",
    "HW.C136_pair",
    "HW.C136_pair_refuted",
    "HW.C136_cycle_refuted",
    "HW.C136_sorted",
    "HW.C136_min_max",
    "HW.C136_find",
    "HW.C136_find_widths_refuted",
    "HW.C136_smt",
    "HW.C136_z3",
    "HW.C136_z3_refuted",
    "HW.C136_smt_refuted"
   ],
   "note": "False for a UIntVector and an SIntVector (C136_pair_refuted: a > b and b > a), for three vectors of BitVector and SIntVector (C136_cycle_refuted: a < b < c < a), for lists of several widths, where in raises (C136_find_widths_refuted), and for symbolic vectors in lists: with z3 in is always True and sorted reverses the list (C136_z3_refuted), with pysmt both raise (C136_smt_refuted). Proved otherwise; sorted is modelled as insertion sort, and C136_sorted shows that every stable sort returns the same list."
  },
  {
   "property": "C137",
   "status": "partial",
   "theorems": [
    "HW.C137_is",
    "HW.C137_smt_partial",
    "HW.C137_z3_partial",
    "HW.C137_no_remainder",
    "HW.C137_verdict_partial",
    "HW.C137_same_verdict",
    "HW.C137_values_unseen_partial",
    "HW.C137_refuted"
   ],
   "note": "False of a function that takes a remainder by zero (C137_refuted): x.bvurem(d) is x itself iff d is zero, in simulation only, so `is` reveals the value, and assignments reach x. Proved of all functions whose simulation takes none, in particular of those without bvurem and % (C137_no_remainder); the two solvers agree in every case (C137_same_verdict). With z3 handlers must not tell InconsistentSizeError from TypeError, as in C134."
  },
  {
   "property": "C138",
   "status": "partial",
   "theorems": [
    "HW.Smt.Der.C138_smt_construct_partial",
    "HW.Smt.Der.C138_smt_construct_raises",
    "HW.Smt.Der.C138_smt_methods_partial",
    "HW.Smt.Der.C138_smt_setitem",
    "HW.Smt.Der.C138_smt_comparisons_partial",
    "HW.Smt.Der.C138_smt_readings",
    "HW.Smt.Der.C138_smt_operand_raises",
    "HW.Smt.Der.C138_smt_structure_partial",
    "HW.Smt.Der.C138_smt_sized_subclass_raises",
    "HW.Smt.Der.C138_smt_adc_partial",
    "HW.Smt.Der.C138_smt_adc_raises",
    "HW.Smt.Der.C138_smt_operators",
    "HW.Smt.Der.C138_smt_operators_widths",
    "HW.Smt.Der.C138_smt_operators_int_partial",
    "HW.Smt.Der.C138_smt_operators_raise",
    "HW.Smt.Der.C138_smt_rrshift",
    "HW.Smt.Der.C138_smt_ite",
    "HW.Smt.Der.C138_smt_refuted",
    "HW.Smt.Der.C138_smt_convert_refuted",
    "HW.Smt.Der.C138_smt_ite_refuted",
    "HW.Z3.Der.C138_z3_construct_partial",
    "HW.Z3.Der.C138_z3_construct_raises",
    "HW.Z3.Der.C138_z3_methods_partial",
    "HW.Z3.Der.C138_z3_setitem",
    "HW.Z3.Der.C138_z3_comparisons_partial",
    "HW.Z3.Der.C138_z3_readings",
    "HW.Z3.Der.C138_z3_operand_raises",
    "HW.Z3.Der.C138_z3_structure_partial",
    "HW.Z3.Der.C138_z3_sized_subclass_raises",
    "HW.Z3.Der.C138_z3_adc_partial",
    "HW.Z3.Der.C138_z3_adc_raises",
    "HW.Z3.Der.C138_z3_operators_partial",
    "HW.Z3.Der.C138_z3_sdiv",
    "HW.Z3.Der.C138_z3_compare",
    "HW.Z3.Der.C138_z3_operators_widths",
    "HW.Z3.Der.C138_z3_ite",
    "HW.Z3.Der.C138_z3_refuted",
    "HW.Z3.Der.C138_z3_convert_refuted"
   ],
   "note": "False for classes derived from a sized class (class Word(SMTBitVector[8])): slices, concat, zext, sext, ext, bvcomp, adc, as_sint, conversions to another width, and construction from a sequence raise AttributeError, and ite on such a class and a subclass of it raises TypeError (C138_smt_refuted, C138_smt_convert_refuted, C138_smt_ite_refuted, C138_z3_refuted, C138_z3_convert_refuted). Everything else is proved of every class, and everything of the classes U[n] of a user-defined U. An int shifted right by an unsigned symbolic vector is the finding of C23 (C138_smt_rrshift)."
  },
  {
   "property": "C139",
   "status": "partial",
   "theorems": [
    "HW.C139_construct",
    "HW.C139_construct_raises",
    "HW.C139_bit",
    "HW.C139_roundtrip",
    "HW.C139_methods",
    "HW.C139_comparisons",
    "HW.C139_operators_partial",
    "HW.C139_compare",
    "HW.C139_operand_raises",
    "HW.C139_bit_operators",
    "HW.C139_bit_operand_raises",
    "HW.C139_adc",
    "HW.C139_adc_bool_refuted",
    "HW.C139_sequence",
    "HW.C139_sequence_refuted",
    "HW.C139_rejected",
    "HW.C139_families_refuted"
   ],
   "note": "False where a Boolean formula should stand for a bit: as the carry of adc and as an element of a list it raises TypeError, while the SMTBit of the same formula is taken (C139_adc_bool_refuted, C139_sequence_refuted); concat and item assignment take no formulas (C139_rejected); z3 vectors take Boolean formulas (C139_families_refuted). Signed // and % are left to C35. Formulas on the left of an operator are in the hands of pysmt."
  },
  {
   "property": "C140",
   "status": "partial",
   "theorems": [
    "HW.C140_construct",
    "HW.C140_construct_raises",
    "HW.C140_construct_bool",
    "HW.C140_bit",
    "HW.C140_bit_raises",
    "HW.C140_roundtrip",
    "HW.C140_methods",
    "HW.C140_comparisons",
    "HW.C140_operators_partial",
    "HW.C140_compare",
    "HW.C140_operand_raises",
    "HW.C140_bit_operators",
    "HW.C140_adc",
    "HW.C140_ite",
    "HW.C140_ite_refuted",
    "HW.C140_sequence",
    "HW.C140_sequence_raises",
    "HW.C140_sequence_agrees",
    "HW.C140_setitem_refuted"
   ],
   "note": "False for ite of two expressions (TypeError, C140_ite_refuted) and for item assignment of a Boolean expression (ValueError, C140_setitem_refuted); z3Bit of a vector expression raises Z3Exception (C140_bit_raises). Signed // is left to C93. Expressions on the left of an operator are in the hands of z3."
  },
  {
   "property": "C141",
   "status": "partial",
   "theorems": [
    "HW.C141_construct",
    "HW.C141_total",
    "HW.C141_raises",
    "HW.C141_operators_partial",
    "HW.C141_reflected_partial",
    "HW.C141_roundtrip",
    "HW.C141_vector",
    "HW.C141_signed_refuted"
   ],
   "note": "// with a negative divisor is not Python's (C42); a signed vector is read as unsigned, unlike int() of the concrete one (C141_signed_refuted). Formulas on the left of an operator are in the hands of pysmt; the reflected methods are proved."
  },
  {
   "property": "C142",
   "status": "partial",
   "theorems": [
    "HW.C142_left_partial",
    "HW.C142_right_partial",
    "HW.C142_rshift_swapped",
    "HW.C142_raises",
    "HW.C142_compare",
    "HW.C142_same_class_partial",
    "HW.C142_construct",
    "HW.C142_bits_partial",
    "HW.C142_xor_refuted",
    "HW.C142_bit_vector",
    "HW.C142_bit_compare",
    "HW.C142_vector_bit_partial",
    "HW.C142_z3_left_partial",
    "HW.C142_z3_compare",
    "HW.C142_z3_value",
    "HW.C142_z3_right",
    "HW.C142_solvers",
    "HW.C142_refuted",
    "HW.C142_bit_right_refuted",
    "HW.C142_z3_construct",
    "HW.C142_z3_construct_refuted"
   ],
   "note": "False for negative SIntVectors with pysmt (ValueError, NameError in reflected operators), for Y >> x on the unsigned classes (computes x >> Y), for Bit ^ SMTBit (TypeError), for z3 vectors on the right of an arithmetic operator (TypeError) and for operands of unequal signedness (C142_refuted). Vectors of another width are accepted instead of raising. // and % of SMTSIntVector and // of z3SIntVector are left to C34 and C93. ite and concat between families are not modelled."
  },
  {
   "property": "C143",
   "status": "partial",
   "theorems": [
    "HW.C143_length",
    "HW.C143_concrete",
    "HW.C143_width_refuted",
    "HW.C143_smt_partial",
    "HW.C143_smt_ne_partial",
    "HW.C143_smt_tuple",
    "HW.C143_mixed_refuted",
    "HW.C143_z3_partial",
    "HW.C143_z3_refuted",
    "HW.C143_z3_raises",
    "HW.C143_z3_bit_vector"
   ],
   "note": "Holds with pysmt unless a Sum compares a bit with a vector (C143_mixed_refuted). False with z3, where a z3Bit has no truth value of its own and counts as true: any two tuples of z3 vectors of the same widths compare equal, and no two sums are ever unequal (C143_z3_refuted). Sums that hold vectors of different widths raise InconsistentSizeError in every family (C143_width_refuted). Cyclic values are not modelled. Values with different numbers of fields are never equal (C143_length)."
  },
  {
   "property": "C144",
   "status": "partial",
   "theorems": [
    "HW.C144_smt_partial",
    "HW.C144_verdict_partial",
    "HW.C144_replay_partial",
    "HW.C144_follows_condition",
    "HW.C144_z3_refuted"
   ],
   "note": "Proved for pysmt (C144_smt_partial, C144_verdict_partial, C144_replay_partial) for functions without control flow that assert, before // and %, that no signed class is involved (the families differ there, C35), before ext(k) that k >= 1 (C29_ext_zero_refuted), before rotations and slices the bounds of C123. Tuples and bits as branches are C27, C37. False with z3, which raises TypeError for such a multiplexer (C144_z3_refuted)."
  },
  {
   "property": "C145",
   "status": "partial",
   "theorems": [
    "HW.C145_meta_partial",
    "HW.C145_object_partial",
    "HW.C145_derived",
    "HW.C145_comment_refuted",
    "HW.C145_structural_refuted",
    "HW.C145_tower_refuted",
    "HW.C145_ite"
   ],
   "note": "Proved (C145_meta_partial, C145_object_partial, C145_derived, C145_ite): recognised exactly if the metaclass provides _bitvector_t_ and the class the other two, for metaclasses that are not made by a class with _bitvector_t_. Refuted: a class made by type with its own _bitvector_t_ is never recognised, against the comment in the code (C145_comment_refuted); a metaclass made by a class with _bitvector_t_ (C145_tower_refuted); isinstance against any class derived from BitVectorProtocol accepts the objects of every protocol class, related or not (C145_structural_refuted)."
  },
  {
   "property": "C146",
   "status": "proved",
   "theorems": [
    "HW.C146_rebind",
    "HW.C146_anon",
    "HW.C146_back",
    "HW.C146_merge_refuted"
   ],
   "note": "C146_rebind, C146_anon, C146_back. C146_merge_refuted shows that the last restriction is needed: a Sum of M(Tuple[X]) and M(Tuple)[X] has one alternative after a rebinding that replaces nothing."
  },
  {
   "property": "C147",
   "status": "proved",
   "theorems": [
    "HW.C147_returns",
    "HW.C147_selects",
    "HW.C147_raises",
    "HW.C147_symbolic_returns",
    "HW.C147_symbolic_selects",
    "HW.C147_symbolic_attribute",
    "HW.C147_classes_refuted",
    "HW.C147_z3_one",
    "HW.C147_z3_both"
   ],
   "note": "C147_returns, C147_selects, C147_raises, C147_symbolic_*; C147_z3_one and C147_z3_both for z3Bit.ite with concrete branches. C147_classes_refuted: a concrete Bit does not select between symbolic vectors of different classes although both families have polymorphic classes. No protocol objects among the branches; nothing is claimed for z3 leaves under an SMTBit."
  },
  {
   "property": "C148",
   "status": "proved",
   "theorems": [
    "HW.C148_smt_unrolled",
    "HW.C148_z3_unrolled",
    "HW.C148_smt_replay",
    "HW.C148_z3_replay",
    "HW.C148_all_depths",
    "HW.C148_smt_induction",
    "HW.C148_z3_induction",
    "HW.C148_induction_exact"
   ],
   "note": "C148_smt_unrolled, C148_z3_unrolled, C148_smt_replay, C148_z3_replay, C148_all_depths, C148_smt_induction, C148_z3_induction; C148_induction_exact: both solvers accept the same induction proofs, those that hold in simulation from all states of the declared classes. The instructions are those of C123, with its asserts; names of inputs differ per cycle."
  },
  {
   "property": "C149",
   "status": "partial",
   "theorems": [
    "HW.C149_unreached",
    "HW.C149_touched",
    "HW.C149_construct",
    "HW.C149_copy",
    "HW.C149_enumerate",
    "HW.C149_enumerate_assigned_partial",
    "HW.C149_enumerate_shared",
    "HW.C149_enumerate_refuted"
   ],
   "note": "False in the last clause: enumerate() of a Tuple or Product class makes one object per field without fields and puts it into all yielded values, so an in-place change of it changes them all (C149_enumerate_refuted, C149_enumerate_shared, for every such class). Everything else is proved: C149_unreached, C149_touched, C149_construct, C149_copy, C149_enumerate, C149_enumerate_assigned_partial."
  },
  {
   "property": "C150",
   "status": "partial",
   "theorems": [
    "HW.C150_class_partial",
    "HW.C150_instance_partial",
    "HW.C150_undeclared",
    "HW.C150_stored",
    "HW.C150_properties",
    "HW.C150_reserved",
    "HW.C150_unbound_t_refuted",
    "HW.C150_methods_refuted",
    "HW.C150_match_refuted",
    "HW.C150_name_refuted",
    "HW.C150_inherited_refuted"
   ],
   "note": "False for some names that are not reserved: a field unbound_t cannot be read on the class, and an Enum with such a member raises AttributeError in its class statement (C150_unbound_t_refuted); a field rebind or from_fields hides the method (C150_methods_refuted); with a field Match no field of a TaggedUnion can be read (C150_match_refuted); with a member name repr of every member raises (C150_name_refuted); an attribute of a base class hides the field of a Product (C150_inherited_refuted). Proved otherwise: C150_class_partial, C150_instance_partial, C150_undeclared, C150_stored, C150_properties, C150_reserved."
  },
  {
   "property": "C151",
   "status": "partial",
   "theorems": [
    "HW.C151_simulation",
    "HW.C151_smt",
    "HW.C151_z3",
    "HW.C151_returns",
    "HW.C151_smt_verdict_partial",
    "HW.C151_z3_verdict_partial",
    "HW.C151_smt_output_partial",
    "HW.C151_z3_output_partial",
    "HW.C151_bits",
    "HW.C151_refuted"
   ],
   "note": "The restriction to rewritten functions that return is needed: a dead branch that raises is run by the rewritten function (C151_refuted). With it: C151_simulation, C151_smt, C151_z3, C151_returns and the verdict theorems. z3Bit.ite on two bits returns a vector of width 1, so bits are merged with & and | (C151_bits). Early returns: C153; loops: C154."
  },
  {
   "property": "C152",
   "status": "partial",
   "theorems": [
    "HW.C152_unique",
    "HW.C152_expression",
    "HW.C152_eval_partial",
    "HW.C152_equal_partial",
    "HW.C152_fails",
    "HW.C152_product_refuted",
    "HW.C152_sum_refuted",
    "HW.C152_tagged_refuted",
    "HW.C152_empty_refuted"
   ],
   "note": "Round trip: C152_eval_partial, C152_equal_partial; it fails in exactly the other cases (C152_fails), with C152_product_refuted, C152_sum_refuted, C152_tagged_refuted, C152_empty_refuted. An expression is read off its text in one way (C152_unique). Modified classes count only if printed as one name; the expressions are those repr prints, not all of Python."
  },
  {
   "property": "C153",
   "status": "partial",
   "theorems": [
    "HW.C153_simulation",
    "HW.C153_smt",
    "HW.C153_z3",
    "HW.C153_returns",
    "HW.C153_smt_verdict_partial",
    "HW.C153_z3_verdict_partial",
    "HW.C153_smt_output_partial",
    "HW.C153_z3_output_partial",
    "HW.C153_refuted"
   ],
   "note": "The restriction to rewritten functions that return is needed: returns of different types (or branches that are never taken and raise) cannot be merged (C153_refuted). With it: C153_simulation, C153_smt, C153_z3, C153_returns and the verdict theorems. What follows an if that returns is written into the branches that go on."
  },
  {
   "property": "C154",
   "status": "partial",
   "theorems": [
    "HW.C154_one_outcome",
    "HW.C154_simulation",
    "HW.C154_smt",
    "HW.C154_z3",
    "HW.C154_returns",
    "HW.C154_smt_verdict_partial",
    "HW.C154_z3_verdict_partial",
    "HW.C154_smt_output_partial",
    "HW.C154_z3_output_partial",
    "HW.C154_stops",
    "HW.C154_returns_all",
    "HW.C154_complete_partial",
    "HW.C154_refuted"
   ],
   "note": "The restriction to unrolled functions that return is needed: a loop that changes the width of a variable stops in simulation but cannot be unrolled (C154_refuted, for every k). With it: C154_simulation, C154_smt, C154_z3, C154_returns, the verdict theorems, C154_stops, C154_returns_all (returning does not depend on k >= 1), C154_complete_partial. No break and no return inside a loop."
  },
  {
   "property": "C155",
   "status": "partial",
   "theorems": [
    "HW.C155_smt",
    "HW.C155_z3",
    "HW.C155_smt_verdict",
    "HW.C155_z3_verdict",
    "HW.C155_returns",
    "HW.C155_replay",
    "HW.C155_assign",
    "HW.C155_attribute",
    "HW.C155_tag",
    "HW.C155_sum",
    "HW.C155_inputs",
    "HW.C155_instr",
    "HW.C155_new",
    "HW.C155_rebind_partial",
    "HW.C155_rebind_refuted",
    "HW.C155_classes"
   ],
   "note": "The restriction on rebind_type is needed: it turns Tuple[SIntVector[8]] into a tuple of BitVectors, so the function raises in simulation and not with the solver, and Sum[SIntVector[8]] the other way round (C155_rebind_refuted). For declared classes: C155_smt, C155_z3, C155_returns, C155_smt_verdict, C155_z3_verdict, C155_replay; what the statements do: C155_assign, C155_attribute, C155_tag, C155_sum. Hypothesis on issubclass: it holds between classes of one family exactly if it does between those of the concrete one (vecWorld_alike is an instance). C155_rebind_partial covers Tuples and Products; vectors are not changed in place."
  },
  {
   "property": "C156",
   "status": "partial",
   "theorems": [
    "HW.C156_list",
    "HW.C156_reversed",
    "HW.C156_unpack",
    "HW.C156_roundtrip",
    "HW.C156_equal",
    "HW.C156_slice",
    "HW.C156_concat",
    "HW.C156_repeat",
    "HW.C156_any",
    "HW.C156_all",
    "HW.C156_in",
    "HW.C156_in_int",
    "HW.C156_sum",
    "HW.C156_update",
    "HW.C156_smt",
    "HW.C156_smt_truth",
    "HW.C156_z3",
    "HW.C156_z3_truth_refuted",
    "HW.C156_tuple"
   ],
   "note": "False of the symbolic families: Python takes every z3Bit for true, so any(x), all(x) and v in x are True for every z3 vector (C156_z3_truth_refuted); with pysmt they raise TypeError (C156_smt_truth). v in x raises ValueError for an int other than 0 and 1 (C156_in_int), and sum(x) raises TypeError (C156_sum). The rest is proved."
  },
  {
   "property": "C157",
   "status": "partial",
   "theorems": [
    "HW.C157_copy",
    "HW.C157_product_refuted",
    "HW.C157_deepcopy",
    "HW.C157_deep_product_refuted",
    "HW.C157_deep_value",
    "HW.C157_deep_independent",
    "HW.C157_auto_refuted"
   ],
   "note": "False of Products (and of everything that holds one): the generated __new__ takes the fields, so copy.copy and copy.deepcopy raise TypeError (C157_product_refuted, C157_deep_product_refuted). False of values that hold an Enum member made with new_instruction(): the Auto object is copied, too, so the deep copy differs from the original (C157_auto_refuted). The rest is proved (C157_copy, C157_deepcopy, C157_deep_value, C157_deep_independent) for concrete vectors and bits and values without cycles."
  },
  {
   "property": "C158",
   "status": "partial",
   "theorems": [
    "HW.C158_map_partial",
    "HW.C158_hashable",
    "HW.C158_assigned_refuted",
    "HW.C158_part_refuted",
    "HW.C158_derived_refuted"
   ],
   "note": "Proved (C158_map_partial) while neither keys in the dictionary nor their parts are assigned to, and no class of a key or part of a key is a proper subclass of another; C158_hashable says which values can be keys. Both conditions are needed: a key that is assigned to, even the value it has, is lost, is not found with equal objects, and cannot be deleted (C158_assigned_refuted); a key with a vector changed in place is lost (C158_part_refuted); a TaggedUnion value equal to a Sum key is not found (C158_derived_refuted). Fields without parts compare as an equivalence with compatible hash; cyclic values are left out."
  },
  {
   "property": "C159",
   "status": "partial",
   "theorems": [
    "HW.C159_lookup",
    "HW.C159_sized_partial",
    "HW.C159_error",
    "HW.C159_class",
    "HW.C159_refuted"
   ],
   "note": "That methods are found where they were (C159_lookup) holds whenever T[n] can be made. That T[n] can be made, with the MRO of T in which every vector class is preceded by its sized version (C159_sized_partial), is proved if no class of the MRO names an ordinary class between two vector bases; without that it is false: C159_refuted gives nine classes, each accepted, whose last raises TypeError for every size. Sizing raises nothing but TypeError (C159_error), and a class statement raises TypeError or gives a class whose MRO keeps the order of its bases and their MROs (C159_class). Assumes that no metaclass overrides mro() and that __bases__ is never assigned; the proof is for the bit vector metaclass (FP and ADT classes use the same scheme but are not modelled here)."
  },
  {
   "property": "C160",
   "status": "partial",
   "theorems": [
    "HW.C160_has_mro",
    "HW.C160_error",
    "HW.C160_applies",
    "HW.C160_mro",
    "HW.C160_fields",
    "HW.C160_refuted"
   ],
   "note": "The method resolution clause (C160_mro) and the kind and fields clause (C160_fields) are proved for whatever else type() may refuse. The first clause is false: C160_refuted (an enum with members deriving from an enum with members cannot be modified although its base can). C160_applies says exactly when M(T) exists: no class of T.__mro__ comes from M, and no enum with members in it derives from one with other members; it assumes that type() refuses only repeated bases and bases without an MRO. Members of different enum classes are taken to differ, as in C59."
  },
  {
   "property": "C161",
   "status": "partial",
   "theorems": [
    "HW.C161_getitem",
    "HW.C161_statement_partial",
    "HW.C161_mixin_refuted",
    "HW.C161_fields_refuted"
   ],
   "note": "C161_getitem: the MRO of T[...] without the bound classes is that of T, for every T and index. C161_statement_partial: the same of a class statement with fields and one unbound base. With several bases it is false: C161_mixin_refuted (class P(Product, M) with fields finds an attribute of Tuple and M in M, without fields in Tuple), C161_fields_refuted (class P(Product, AnonymousProduct) is accepted without fields and raises TypeError with them). That T[...] can be made is not claimed (C159 shows the same scheme failing with mixins). Attributes the bound classes do define (_fields_, _field_table_, and for anonymous products the fields, __new__ and __init__) are outside."
  },
  {
   "property": "C162",
   "status": "proved",
   "theorems": [
    "HW.C162_adder",
    "HW.C162_add",
    "HW.C162_subtractor",
    "HW.C162_comparator",
    "HW.C162_signed_comparator",
    "HW.C162_equality",
    "HW.C162_multiplier",
    "HW.C162_shl",
    "HW.C162_lshr",
    "HW.C162_ashr",
    "HW.C162_divider"
   ],
   "note": "One theorem per circuit, each for the three families (InAll). Division by zero is included: the restoring divider and bvudiv/bvurem agree there too. Operands are two vectors of one of the four predefined classes and positive width."
  },
  {
   "property": "C163",
   "status": "proved",
   "theorems": [
    "HW.C163_neg",
    "HW.C163_sub",
    "HW.C163_mul_pow",
    "HW.C163_udiv_pow",
    "HW.C163_urem_pow",
    "HW.C163_sext",
    "HW.C163_rol",
    "HW.C163_carry_save",
    "HW.C163_or",
    "HW.C163_average",
    "HW.C163_de_morgan",
    "HW.C163_ite_mask",
    "HW.C163_slt_flip",
    "HW.C163_carry"
   ],
   "note": "One theorem per rewrite, each for the three families (InAll). Powers of two are exponents below the width, since an int operand must fit; the rotation is by an int k with k <= n; sext by m > 0."
  },
  {
   "property": "C164",
   "status": "proved",
   "theorems": [
    "HW.C164_wiring",
    "HW.C164_one_digit",
    "HW.C164_success"
   ],
   "note": "Functions are the circuits of C123 restricted to instructions that move or invert digits (Moves); slices are non-empty and in range, sext is by k != 0 and rotations by 0 <= k <= n, as in C123. Inputs are bits and vectors of the predefined classes with positive width."
  },
  {
   "property": "C165",
   "status": "proved",
   "theorems": [
    "HW.C165_simulation",
    "HW.C165_families",
    "HW.C165_no_higher",
    "HW.C165_division_excluded"
   ],
   "note": "Functions are the circuits of C123 restricted to instructions in which carries only go up (Narrows). In the symbolic families the exceptions may differ in class, as in C123. C165_division_excluded shows that the restriction is needed."
  },
  {
   "property": "C166",
   "status": "proved",
   "theorems": [
    "HW.C166_parity",
    "HW.C166_changes",
    "HW.C166_and_excluded"
   ],
   "note": "Functions are the circuits of C123 restricted to the instructions in Linear. Inputs are bits and vectors of predefined classes. In the symbolic families the exceptions may differ in class, as in C123. C166_and_excluded shows that the restriction is needed."
  },
  {
   "property": "C167",
   "status": "proved",
   "theorems": [
    "HW.C167_simulation",
    "HW.C167_families",
    "HW.C167_join",
    "HW.C167_addition_excluded"
   ],
   "note": "Functions are the circuits of C123 restricted to the instructions in Bitwise. A bit as the operand of a vector method is excluded, since it stands for digit 0 only. In the symbolic families the exceptions may differ in class, as in C123. C167_addition_excluded shows that the restriction is needed."
  },
  {
   "property": "C168",
   "status": "proved",
   "theorems": [
    "HW.C168_vectors",
    "HW.C168_bits",
    "HW.C168_counterexample",
    "HW.C168_counterexample_z3",
    "HW.C168_counterexample_bits",
    "HW.C168_counterexample_bits_z3"
   ],
   "note": "Functions are the circuits of C123; Miter.both runs the second after the first with its values renumbered. For vectors the output of the second must not be a bit (bveq would convert it). Validity is that of the modelled terms; the solvers themselves are not modelled, as in C123."
  },
  {
   "property": "C169",
   "status": "proved",
   "theorems": [
    "HW.C169_monotone",
    "HW.C169_masks",
    "HW.C169_smt",
    "HW.C169_z3",
    "HW.C169_excluded"
   ],
   "note": "Functions are the circuits of C123 restricted to the instructions in Raises. C169_excluded shows that inversions and sums must be left out. ite is left out because its condition is not monotone."
  },
  {
   "property": "C170",
   "status": "proved",
   "theorems": [
    "HW.C170_simulation",
    "HW.C170_families",
    "HW.C170_mixed_excluded"
   ],
   "note": "Functions are the circuits of C123 restricted to the instructions in Bitwise of C167. The dual may raise another exception than the original, because ite reads its branches in the other order. C170_mixed_excluded shows that a bit as the operand of a method of a vector must be left out."
  }
 ]
}