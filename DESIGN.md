# hwtypes: formal model and proofs

Target: `leonardt/hwtypes` (source text in `/repo/hwtypes`, read only, never run here).
Model and proofs: Lean 4.33.0 + single Mathlib modules, under `/verif/lean/Verif`.

## Trusted base

* Lean's kernel, and at most the three standard axioms `propext`, `Classical.choice`,
  `Quot.sound` (checked with `#print axioms`; every property theorem is listed with its axioms in `AXIOMS.md`,
  made by `tools/gen_axioms.py`).
  No own axioms, no `sorry`, no `native_decide`, no `bv_decide`.
* The reading of the Python text into Lean: every definition in `Verif/Model` cites file and
  lines; places where it simplifies say so.
* The semantics of CPython features the code relies on, modelled in `Verif/Py` from the language
  reference: unbounded ints with floor `//` and `%`, two's-complement `& | ^ ~ << >>`, list and
  slice indexing, `isinstance` via MRO, binary-operator dispatch (`NotImplemented`, reflected
  methods, subclass priority), exceptions as values, `try/except TypeError` (which also catches
  `InconsistentSizeError`).
* pysmt / z3 / gmpy2 are not available and not modelled as code: SMT terms get the SMT-LIB
  semantics (core `BitVec` operations), MPFR values are exact dyadic numbers. What is assumed of
  them is said at the definitions.

## Layout

* `Verif/Py/*`      Python semantics (ints, errors, slices)
* `Verif/Model/*`   model of the code, function by function: bit vectors and their classes at top level,
  `Model/Smt` (pysmt family, floats included), `Model/Z3`, `Model/Fp` (gmpy2 floats), `Model/Adt`
* `Verif/Spec/*`    independent, small specifications
* `Verif/Lemmas/*`  helper lemmas
* `Verif/Props/*`   theorems named after their property, with non-vacuity `example`s
* `properties.jsonl`, `MANIFEST.json`, `AXIOMS.md`  generated by `tools/`; `seeded/LOG.jsonl` wrong programs tried

## Modelling conventions

* Exceptions are values: `PyM α = Except PyErr α`. `NotImplemented` is `none` in `PyM (Option α)`.
* A vector object is `{kind, size, value : Int}`; the model does *not* build in the range
  invariant, it is proved (C01).
* `kind` is the class (`BitVector`, `NumVector`, `UIntVector`, `SIntVector`, or a polymorphic
  class made by `ite`). User subclasses of these are covered by the class-heap model (C31, C32)
  and by the hierarchy model `Model/Derived.lean`, which says how far they behave as the class they
  derive from (C131); `Model/Smt/Derived.lean` and `Model/Z3/Derived.lean` are the same for the symbolic
  families (C138).

## Plan per property

| id | modelled | how proved |
|----|----------|-----------|
| C01 | constructor, every method, assignment histories | range invariant, by cases on the op and induction on programs of ops |
| C02 | `BitVector.__init__` on all argument kinds | equality with arithmetic spec |
| C03 | `as_sint`, `__int__` | uniqueness in range + congruence |
| C04 | `seq2int`, `int2seq`, `bits`, `binary_string` | induction on length |
| C05 | `bvadd/sub/mul/neg` | equality with `Int` arithmetic mod 2^n |
| C06 | `bvnot/and/or/xor/nand/nor/xnor` | `testBit` pointwise |
| C07 | `bvshl/lshr/ashr` | vs. multiplication/floor division; int amounts refuted beyond 2^n, `_partial` below |
| C08 | `bvrol/bvror` | `testBit` at rotated index; amounts as vectors. int amounts >= 2^n refuted |
| C09, C10 | comparisons | vs. `Int` order |
| C11 | `bvudiv/bvurem` | vs. `Nat` div/mod and `BitVec.smtUDiv/umod` |
| C12 | `bvsdiv/bvsrem` | **false of the code** (floor division): refutation + `_partial` under equal signs/exact division |
| C13 | `bvsdiv/bvsrem` | vs. floor division |
| C14 | `concat` | value and bit-list equality |
| C15 | `__getitem__` | vs. list indexing / Python slice spec |
| C16 | `__setitem__` | frame law + induction on histories |
| C17 | `zext` | value |
| C18 | `sext` | **false at k = 0** (raises ValueError): refutation + `_partial` for k >= 1 |
| C19 | `repeat` | bit law by induction |
| C20 | `adc` | exact equation; limb chaining by induction |
| C21 | `overflow` | vs. range of the exact sum |
| C22 | coercion + operator dispatch | case analysis over operators/classes |
| C23 | operator dispatch | **false for `int >> BitVector`** (operands swapped): refutation + the other cases |
| C24 | operator dispatch | **false for the reflected side** (NameError): refutation + left side |
| C25 | CPython dispatch over class pairs | case analysis |
| C26 | `__hash__`, `__eq__` | injectivity of the hash key |
| C27, C28 | `bit_vector_util.build_ite` etc. | structural induction on branches |
| C29 | `PolyType`, `build_VCall` | induction on the dispatch tree |
| C30 | `Bit` | case analysis |
| C31, C32 | `AbstractBitVectorMeta` as a class-heap state machine | invariant by induction on histories |
| C33 | unsized `__call__` | bit_length bounds |
| C34-C39, C41 | `smt_bit_vector.py` as term builders, SMT-LIB evaluation | evaluation = concrete model, for all assignments; C35 and C37 refuted |
| C40 | `_gen_name`, name tables | invariant by induction on histories |
| C42 | `smt_int.py` | evaluation; floor division with negative divisor refuted |
| C43 | `smt_utils.py` | induction on formulas |
| C44-C48 | `fp_vector.py` codec and context numbers | arithmetic over all formats |
| C49 | rounding mode table | RNA refuted, others proved |
| C50, C51, C54, C55 | `adt.py` values as objects in a store (`Model/Adt/Heap.lean`) | invariants by induction on histories; slice assignment and fields called `Match` refuted |
| C52, C53, C56 | equality, hash, `value_dict`, `from_values` on value trees | refutations where assignment breaks equality/hash |
| C57 | `enumerate` | induction on types |
| C58 | `Enum` | case analysis |
| C59 | class caches | invariant by induction on histories |
| C60, C61 | `rebind`, `rebind_bitvector` | induction on type trees |
| C62 | modifiers as class-heap machine | invariant by induction on histories |
| C63-C65 | `wrap/unwrap/strip/push` on type trees | induction |
| C66 | visitors | induction |
| C67 | `FrozenDict`, `OrderedFrozenDict` | order-insensitive equality; mixed-kind hash contract refuted |
| C68 | `_AttrSyntax.__new__`, `from_fields` | case analysis |
| C69 | equality dispatch over all operand kinds | case analysis; Bit against vector refuted |
| C70 | client programs over registers with object identities | invariant by induction on programs; remainder by zero refuted |
| C71 | class cache keyed by `==`/hash of the index | history witness + what still holds |
| C72 | both families' argument checks | refutations per operation; the agreeing cases as iff |
| C73 | `bvrol`, `bvror` symbolic | evaluation, bitwise; vector amounts refuted |
| C74 | `SMTBit` operators with `bit_cast` | evaluation; reflected `^` refuted |
| C75 | symbolic operator dispatch | relation with the concrete dispatch, by cases on operator/class/operand |
| C76 | pysmt's permanent symbol table beside hwtypes' weak one | invariant by induction; refuted by a dead explicit name |
| C77, C78 | `fp_add/sub/mul/div/fma`, the context decorator | exact rational then C49; special-value table by cases |
| C79, C80 | same | algebra of the exact results; monotonicity of each rounding mode |
| C81 | comparisons | order of the extended line, by cases |
| C82 | `fp_neg/abs/is_*` | encoding; three refutations |
| C83 | `to_ubv`, `to_sbv` | floor arithmetic |
| C84 | `fp_cast`, constructor | case analysis |
| C85 | `fp_min`, `fp_max` | order of C81, injectivity of representation |
| C86 | `fp_rem` | grid argument: the remainder is representable |
| C87 | `fp_round_to_integral` | floor/ceiling arithmetic; RNA refuted |
| C88 | `rebind_keep_modifiers` | separation of field types makes the successive rebindings simultaneous; refuted without |
| C89 | `rebind_type` | composition of C61 and C60; modified types refuted |
| C91 | generated constructors | argument binding; names `cls`, `self`, `super` refuted |
| C90 | class heap of C59 | shape of every bound class, in the invariant of C59 |
| C92 | `z3BitVector` methods | z3 expression = meaning function; `BitVec` to int bridge lemmas of C34 |
| C93 | z3 `bvsdiv`, `bvsrem` | truncation against floor, exact characterisation; refuted |
| C94 | z3 structural operations | relation lemmas per method |
| C95 | z3 operators | dispatch model, one relation theorem per operator class and order |
| C96 | z3 `ite` | case by branch kinds; refuted against the concrete `ite` |
| C97, C98 | names of z3 values | invariant over histories; independence of live values; aliasing witness |
| C99, C100 | soundness of SMTFPVector's uninterpreted functions | explicit interpretation that decodes, runs the concrete method and encodes; induction over formulas |
| C101-C104, C106 | SMTFPVector's methods, operators, operands, constructor | case analysis; freeness theorem for the refutations |
| C105 | class statements below SMTFPVector | invariant of the symbol table over statements |
| C107 | `fp_sqrt` | the rational the model rounds lies between the same grid points as the real root (`Real.sqrt`), so every rounding of it is the rounding of the root |
| C108 | constructors of `SMTFPVector` and of the bit-vector module on one symbol table | invariant by induction on histories; witnesses for the refutations |
| C109, C110 | `AbstractFPVectorMeta` as a class-heap state machine | simulation into the class heap of C31, C32, with bindings numbered injectively |
| C111 | `FPVector.random`, the draws as arguments | monotonicity and exactness of rounding (C48, C80) |
| C112 | `FormulaConstructor.serialize` on formula trees, pysmt's printer of bits as a parameter | a line cannot be a prefix of another; induction on formulas |
| C113 | `random` of vectors and `Bit`, the draw as an argument | C03 (unique signed value) |
| C114 | `make_constant` of the three families, on classes and instances | C02, C36, C94 |
| C115 | `SImpl`, `sbinA`, `sbinC`, `SBV.ext`: `VCall` with symbolic conditions | C28, C29, C38, C75 |
| C116 | `MHeap`: modifiers, `_mod_cache` and the strong references of `_modifier_lookup`, beside the class heap of C59, C62 | invariant by induction on histories, C62 by projection |
| C117 | `new` on both class heaps | C31, C32, C90 |
| C118 | `TypedProperty` objects in a store, class bodies as statement lists | simulation by immutable property values |
| C119 | `FPVector.__init__` on numbers, texts, foreign objects | rounding in [1, 2) explicitly; witnesses per mode |
| C120 | `__float__`, `FPVector(float)` | numbers of a format are numbers of every larger IEEE format |
| C121 | `set_context`, every decorated method with an explicit current context | state monad; nested contexts closed |
| C122 | `__repr__`, `__str__` of ADT values, bits, vectors; class names | printed values are bracket-closed texts, lists of them split uniquely |
| C123 | all methods shared by the three families | one abstract simulation lemma over a list of instructions; each family's per-method theorems are its hypotheses; inputs correspond to assignments |
| C124 | `__setitem__` of the three families, aliasing | names hold an object identity and a value; the same simulation lemma, relating identities; the concrete family's one aliasing method is a parameter |
| C125 | `__hash__`, `==`, `__setitem__` under a model of CPython's dict | entries store hashes; invariant linking entries to a function on values, over programs of the machine of C70 |
| C126 | truncation warnings of the three constructors | `bit_length` bounds, case analysis |
| C127 | warnings of `reinterpret_from_bv`, `reinterpret_as_bv` | from C44-C46 |
| C128, C129 | expressions over the operators, on vectors and on Python ints | structural induction; bitwise operators and reduction modulo 2^n commute |
| C130 | the same expressions on both symbolic families | induction with C75, C95 at each operator |
| C131 | vectors over an arbitrary class hierarchy; the hierarchies are those of the class heap of C31 (`C131_hierarchy`) | simulation by the predefined classes, method by method; operators against the reference operations; **false for classes derived from sized classes** |
| C132 | `get_all_modifiers`, `wrap_modifier`, `unwrap_modifier` on the class heap | induction along the first bases, with the heap invariant of C62; **last clause false** |
| C133 | client code that packs records with `concat` and unpacks them with slices | induction on the fields; transfer to the symbolic families through the simulations of C123 |
| C134 | client functions with control flow (`if`, `while`, `try`) over the three families | structural induction on programs and on the turns of loops, from the simulations of C123 |
| C135 | `bool` of bits and vectors of each family | the same induction; **false** of z3 bits and of all symbolic vectors |
| C136 | `sorted`, `min`, `max`, `in`, `index`, `count` on lists of vectors | induction on the list from C25 (comparisons as numbers); C75, C95 for the symbolic families; **false** of lists of mixed classes and of symbolic vectors |
| C137 | client functions with control flow, item assignment and aliasing | structural induction on programs and on turns of loops, from the simulation of C124; **false** of remainders by zero |
| C138 | symbolic vectors (pysmt, z3) over an arbitrary class hierarchy | equality of the terms with those of the predefined classes, method by method; operators and `ite` by meaning under every assignment; **false for classes derived from sized classes** |
| C139 | pysmt formulas handed to constructors, methods, operators, `adc` and lists | sort check as equivalence; meaning under every assignment by the homomorphism theorems of C34 – C36, C75; **false for Boolean formulas in place of bits** |
| C140 | z3 expressions handed to constructors, methods, operators, `adc`, `ite` and lists | the coercion of an expression is that of a wrapped object, then C92, C94, C95; **false for `ite` of two expressions and for item assignment** |
| C141 | pysmt formulas handed to `SMTInt` | sort check as equivalence; meaning by the lemmas of C41, C42; **signed vectors are read as unsigned** |
| C142 | operators between the concrete and the symbolic families | each family sees the other's objects as objects with or without `__int__`; Python's dispatch spelled out, then C23, C25, C75, C95; **false for negative `SIntVector`s, `Y >> x`, `Bit ^ SMTBit`, z3 on the right** |
| C143 | `==`, `!=` of ADT values with symbolic fields | the methods of adt.py over any family, with object identity and truth values; simulation relation between families, by induction on the values; **false for z3 tuples, `!=` of z3 sums, and a bit against a vector** |
| C144 | circuits with `ite` over different classes | simulation relation between the families that also relates the classes made, each of which has its number; induction on the program; includes `>>` with a right operand of a subclass, where both families swap the operands and make a further class |
| C145 | `BitVectorProtocol` and its metaclasses in an arbitrary universe of classes | recursion up the tower of metaclasses unfolded to a decision; **refuted** for classes with a `_bitvector_t_` of their own and for `isinstance` against derived classes |
| C146 | `rebind` without the restrictions of C60 on modifiers and class bodies | relation that forgets the place of modifiers; induction on the size of the class; composition of two such relations |
| C147 | `ite` across families | `build_ite` over leaves of three families; the three phases by mutual induction on branches that fit; `TypeError` by induction on those that do not |
| C148 | client functions called once per clock cycle | the simulations of C123 carried through cycles by induction on their number; window induction on the length of the simulation |
| C149 | `__init__` and `__setitem__` of ADT values, `enumerate`, on objects | values as trees read from the store; what an object reaches; a relation between construction on objects and on trees |
| C150 | attribute access on ADT classes and instances | Python's lookup over the dictionaries of the metaclass, the class and the instance |
| C151 | functions that branch on bits | the function with `if` against the function that runs both branches and merges with `ite`, for any family |
| C152 | `eval(repr(x))` of ADT values | a text is the text of one expression; evaluating it calls the constructors of C01-C60 on the printed arguments |
| C153 | functions that return from inside an `if` | as C151, the returned tuples merged entry by entry |
| C154 | functions that loop on bits | big-step relation for `while` against the function unrolled `k` times with an assertion after the last turn, for any family |
| C155 | functions over records and unions | simulation relation on heaps of ADT objects whose leaves are vectors and bits of a family |
| C156 | vectors as Python sequences | Python's fallback iteration over `__getitem__` as inductive relations, solved for every indexable object |
| C157 | copies | `copy.copy` and `copy.deepcopy` with its memo on the store of ADT objects; the result is shown isomorphic and disjoint |
| C158 | dictionaries with ADT keys | `dict` as in C125 over the store of ADT objects, against a function on values up to `==`; a value is never deeper than there are objects |
| C159 | sizing and method resolution | CPython's C3 merge over the class heap of C31; the relation `Merge` that the merge decides; induction on the merge of the sized classes against that of the plain ones |
| C160 | modifiers and method resolution | the C3 merge of C159 over the class heap of C59 and C62; the MRO of `M(T)` computed from that of `T`; success by induction on the class; **first clause false** |
| C161 | binding and method resolution | what is above a bound class is bound or above the unbound one (induction on the class); the C3 merge keeps the order of the first base; **false for several bases with fields** |
| C162 | gate-level circuits | induction on the number of digits left, over any family that simulates the concrete one (`Sim`, C123); the value computed so far is the part of the operands already read |
| C163 | rewrites of arithmetic | both sides computed as numbers in the concrete family and carried over by `Sim` (C123); the bitwise ones digit by digit, the mixed ones by writing a number as the sum of its digits |
| C164 | code that only moves bits | every instruction sends a digit to a digit, chosen from the widths (C06-C08, C14, C15, C17, C18); induction on the circuit, composing the drawings; other families by `Sim` |
| C165 | computing low digits alone | each operation is an integer operation modulo 2^n that respects congruence modulo 2^k; simulation between the circuit and the cut-down circuit by induction, composed with `Sim` for the other families |
| C166 | code of moves and exclusive ors | each instruction gives every digit as a parity of earlier digits (C164 for moves, C06 for `bvxor`); parities compose; induction on the circuit, then `Sim` for the other families |
| C167 | bitwise code on parts of vectors | each method gives digit `lo + i` of its result from digits `lo + i` (C06); simulation between the circuit and its part by induction, composed with `Sim` for the other families; `concat` puts the parts together (C14) |
| C168 | equivalence checking | a run of the two circuits one after the other is the two runs (induction, values renumbered); `bveq` by C09; then the verdicts and the replay of C123 |
| C169 | moves, ands and ors are monotone | the sources of C164 contain no inverter for these instructions; every digit of a step is a monotone function of the digits before; induction; the symbolic families by the replay of C123 |
| C170 | De Morgan's laws for whole functions | digits of each method from C06, the law of De Morgan for each pair of operators; induction over the code; the symbolic families by the replay of C123 |

## ADT classes as modelled (`Model/Adt/Type.lean`)

* A class is the tree of its fields with what the class machinery keys it by; class identity is equality of
  trees. That the caches realise this is C59 and C62, proved on the class heap.
* `World` holds what the surrounding program decides: the subclass relation (any preorder), the iteration order of
  frozensets, and the order in which a cached `TaggedUnion` was first defined. Every theorem is quantified over it.
* `Built` are the classes obtainable with `[...]`, `class` statements, `from_fields` and modifiers from unbound
  bases; subclasses of bound classes and `cache=False` classes are not in it.

## ADT class caches as modelled (`Model/Adt/ClassCache.lean`)

* A heap of classes with metaclass, bases, `_fields_`, `_unbound_base_`; the weak caches `_class_cache`,
  `_sub_class_cache`, `_sub_classes`, `_modifier_lookup`; the classes the program refers to. A history is any
  sequence of class statements, `from_fields`, `T[...]`, `M(T)`, reaching a class through another, dropping
  references, and collections of classes to which nothing that stays refers.
* What `type.__new__` accepts beyond distinct bases and the metaclass rule (C3, layout) is an arbitrary oracle `Env`.
* Every class carries a ghost `Origin` (which key made it); no function of the model reads it.
* Names and attribute values are numbers. A call that raises leaves no trace (in the code the base classes it has
  made stay in the cache until collected). `metaclass=` in class statements and `Enum[...]` are left out.

## ADT values as modelled (`Model/Adt/Heap.lean`)

* Objects live in a store, are shared by reference and mutated in place; a history is a list of statements, and a
  statement that raises is caught by the program and leaves the store as it is at that moment.
* `Op.Known`: constructor calls are on classes that can be built. Private attributes are not written directly.
* As the right side of a slice assignment only ADT objects are iterable.

## ADT values as trees (`Model/Adt/Value.lean`)

* `Store.read` gives the tree of an object at one moment; cyclic values have none.
* `Leaves`: objects that are not ADT values compare by an arbitrary equivalence compatible with their hash, and are
  unequal to ADT values. (That hwtypes vectors meet this is C26, C69.)
* Equality is CPython's dispatch with subclass priority over the `__eq__` methods, recursively.

## pysmt as assumed (`Model/Smt/Term.lean`)

* Terms are finite trees; a constructor call type-checks its arguments as pysmt's type checker does and
  raises `TypeError` when ill-sorted (`node`); `BV(v, w)` raises `ValueError` out of range; `BVExtract`
  asserts its bounds; rotation amounts outside `0..w` and repetition counts below 1 raise `ValueError`.
* `Term.eval` is SMT-LIB semantics on core `BitVec` operations (division by zero as in SMT-LIB).
* `simplify` is *any* function that preserves sort and value (`Simplifier`): every theorem is quantified
  over it.
* Infix notation is enabled: the repository nowhere enables it, yet uses it throughout (operators of pysmt
  nodes, calls of function symbols), so it relies on `import pysmt.shortcuts` doing so. Widths are at least 1 (pysmt has
  no empty vectors).
* `FreshSymbol` (C108) tries `FV<k>` for the successive values of a counter that only grows, until the name is not in
  the symbol table, which never forgets a name.
* The printer (C112): a bit prints on one line that is not empty, does not end in a comma, is not `And(`, `Or(` or
  `Implies(`, and determines the bit.

## z3 as assumed (`Model/Z3/Vector.lean`)

* An expression is its sort and its meaning (a function of the assignment); `z3.simplify` keeps both.
* `BitVecSort(0)` raises; `If`, `==`, arithmetic and rotations raise `Z3Exception` on different sorts;
  `Extract` asks for `0 <= low <= high < width`; `RepeatBitVec` for a positive count.
* z3py's `/`, `%`, `>>`, `<` on vectors are `bvsdiv`, `bvsmod`, `bvashr`, `bvslt`.
* `RotateLeft(a, b)` rotates by the value of `b` modulo the width (`ext_rotate_left`).
* Constants of one name and different sorts are different constants.
* Raw z3 expressions are accepted by the constructors as modelled; as the other operand of an operator
  they are not considered (their own operator methods would take part).

## gmpy2 as assumed (`Model/Fp/Mpfr.lean`)

* An `mpfr` of precision p is a NaN, infinity or zero with a sign bit, or `± m * 2^e` with a full p-bit
  significand m; `as_mantissa_exp` returns `(± m, e)`.
* An operation in a context returns the exact result rounded *once* to the numbers of the context
  (precision, `emin <= E <= emax`, multiples of `2^(emin-1)` with `subnormalize`), in the context's mode;
  overflow and underflow go where the mode says.
* `mpfr('nan')` has sign bit 0. gmpy2's limits on precision and exponents are not modelled.
* With one exponent bit the context's exponent range is empty (non-IEEE) or below its own precision (IEEE);
  theorems about rounding ask for two exponent bits. Decoding (C45, C46) and the pattern direction of C44
  hold for every format.
* The sign of a NaN that an operation makes is left open: the operations take it as an argument `o` and the
  theorems hold for both.
* `gmpy2.sqrt` is computed as the root to enough binary places plus a half unit when inexact, then rounded; that
  this is the real root rounded once is C107, not an assumption. `sqrt` of a negative number is NaN
  (`allow_complex` is off in the contexts hwtypes makes).
* `mpfr_random` draws a number of `[0, 1)`, rounded once in the context (C111). That a fresh `random_state()` always
  has the same seed, so that every call of `random` has the same mantissa, is not used.
* How gmpy2 reads a string is not modelled, only which number it takes it for. `float(o)` of a foreign object is
  its value rounded to the nearest binary64 number, raising `OverflowError` past the largest; `float(mpfr)` is
  `mpfr_get_d` in the rounding mode of the context.
* `with gmpy2.local_context(c)` makes a copy of `c` current, and on every exit puts the former context object back
  unchanged (C121). Programs do not change `T._ctx_` itself.

## Findings (claims that are false of the code)

| id | what happens instead |
|----|----------------------|
| C07, C08 | int shift and rotation amounts are reduced modulo 2^n first |
| C12, C13, C35 | concrete `bvsdiv`/`bvsrem` floor; SMT-LIB and the symbolic family truncate |
| C18 | `sext(0)` raises `ValueError` |
| C23 | `int >> BitVector` computes `BitVector >> int` |
| C24 | a reflected operator on an operand that cannot be converted raises `NameError` (misspelled handler) |
| C29 | polymorphic right operand of `>>` and polymorphic `ext(0)`; `int` of a polymorphic vector is unsigned unless both classes are signed |
| C37 | symbolic `repeat(r)` raises `TypeError` for r >= 2 |
| C41 | symbolic `as_sint` fails at width 1 |
| C42 | `SMTInt // negative` is Euclidean, not floor |
| C43 | `And(generator)`, `Or(generator)` lose all items |
| C49 | `RoundingMode.RNA` rounds away from zero always, not to nearest |
| C77, C87, C107 | as C49, for every operation |
| C82 | `fp_abs(-0)` is `-0`; `fp_abs` of a NaN inverts its sign bit; `fp_is_negative(-0)` is False |
| C69 | `Bit == vector` compares truth values, `vector == Bit` compares numbers |
| C70 | `x % 0` returns the object `x` itself, so a later assignment shows through |
| C71 | `T[8.0]` is accepted iff `T[8]` was created before |
| C72 | seven argument kinds accepted by one family only |
| C73 | symbolic rotation by a vector raises `TypeError` |
| C74 | `True ^ SMTBit` raises `TypeError` |
| C75 | `SMTBit & vector` is a vector, `Bit & vector` a Bit |
| C76 | the automatic name `V_0` can be a variable of existing terms, if a value named `V_0` explicitly has died |
| C50 | `t[0:1] = p` with `t : Tuple[P]` checks `p` against `Tuple[P]`'s slice but stores the elements of `p` |
| C52 | a tuple or product with an assigned field is unequal to a fresh one with the same fields (list against tuple), and not hashable |
| C53 | `from_values(v.value_dict)` raises for a held `None`, for a Sum value that is an instance of two alternatives, and for a Sum assigned an instance of a proper subclass |
| C57 | `Tuple[M(E)].enumerate()` raises `TypeError`: `M(E).enumerate()` yields members of `E` |
| C56 | `==` is not transitive across a Tuple class and two Products deriving from it; a Sum can equal a TaggedUnion deriving from it, with another hash |
| C58 | members of an enum deriving from another are equal to its members of equal value |
| C55 | a field called `Match` shadows the class the getters call: no field can be read |
| C59 | dunder attributes of a class body are not part of the cache key: a second statement with another `__repr__` returns the first class |
| C62 | `issubclass(X, M(T))` and `issubclass(M(T), M)` do not give `issubclass(X, M)` |
| C67 | a `FrozenDict` equals `OrderedFrozenDict`s of any order: `==` not transitive, hashes differ |
| C91 | a Product field called `cls` or `self`: the class statement raises `SyntaxError`; called `super`: the constructor calls the field's value |
| C93 | z3 `//` on signed vectors truncates while `%` floors: `(-7 // 2) * 2 + -7 % 2` is -5 |
| C94 | z3: empty slices, slices with a step, `repeat(r)` for r >= 2 and width 0 raise; `sext(0)` works |
| C95 | z3: no reflected arithmetic (`1 + x` raises `TypeError`), `x == None` raises, `BitVector` with a `SIntVector` on the right uses unsigned `// % >>`, `bit & vector` raises |
| C96 | z3 `ite` of two bits is a `z3BitVector[1]`; branches of two classes raise; `c.ite(-1, 5)` is 1 at width 3 when c holds |
| C98 | a dead explicit `V_0` and the next automatic `V_0` are the same z3 constant |
| C99 | two user classes of one name and width below SMTFPVector share all function symbols |
| C101 | SMTFPVector: `fp_min`, `fp_max` always raise (declared with one parameter), `to_sbv` always raises `KeyError` (misspelt key) |
| C102 | SMTFPVector: no relation between the operators but `!=` and `==`: `x < y` does not give `y > x`, `x + y` may differ from `y + x` |
| C103 | SMTFPVector accepts operands of another format of the same width; `x + 1` raises `AttributeError` |
| C104 | `SMTFPVector(1)` is the bit pattern 1, `FPVector(1)` the number 1 |
| C108 | an explicit name `FV0` is the variable of an unnamed symbolic float; `SMTBitVector` and `SMTFPVector` of one name are one variable |
| C109 | `T[8, 7, RNE, 1]` is accepted iff `T[8, 7, RNE, True]` was created before |
| C111 | `random(allow_inf=False)` can be infinite in bfloat16; with exponents longer than the significand the exponent is rounded, giving infinities and subnormals |
| C112 | `And([])` and `Or([])` print a blank line without the line prefix |
| C113 | `NumVector.random(w)` is a `BitVector[w]`; `SIntVector.random(0)` raises `ValueError` |
| C114 | `make_constant` is a plain method of `SMTBitVector` and `z3BitVector` (a class method in `AbstractBitVector`), so `T.make_constant(v)` raises |
| C115 | `x >> p` with `p` polymorphic, its class below the class of `x` and one alternative unsigned, is `p >> x` where the unsigned alternative is selected (smt_bit_vector.py:535, as in the concrete family) |
| C118 | one `TypedProperty(T)` object used to decorate two functions makes both attributes the second one |
| C119 | `FPVector[8,7,RNE,True](Fraction(q))` rounds to `float` first: for `q = 1 + 2^-8 + 2^-60` it is 1, not `1 + 2^-7`; in directed modes the result can lie on the wrong side; `FPVector[15,112,..](Fraction(2**1024))` raises `OverflowError` |
| C120 | `T(float(x))` is not `x` for some `x` in every format with `mb > 52` or `eb > 11` |
| C122 | `repr(Sum[BitVector[8], BitVector[16]](BitVector[8](1)))` is also the repr of the value holding `BitVector[16](1)`; `str` of an `SIntVector[0]` raises `IndexError` |
| C124 | `bvurem` by zero returns the operand object itself (bit_vector.py:384-385): `y = x.bvurem(0); y[0] = 1` changes `x` in simulation but not under the solvers, which then prove `x` unchanged |
| C125 | a vector that is a dict key can be assigned to (`x[0] = 0`), after which its entry is not found under the old value nor the new |
| C126 | `BitVector[8](obj)` with `int(obj) == -200` is `56` without a warning: the check is `bit_length() > size`, which leaves no room for the sign; `z3BitVector` never warns for such objects |
| C131 | an instance of a class derived from a sized class (`class Word(BitVector[8])`, `Input(BitVector[8])`) raises `AttributeError` on slicing, `concat`, `repeat`, `zext`, `sext`, rotations, `bvcomp`, `adc`: the class has no `unsized_t` |
| C131 | `BitVector[8](0x80) >> SIntVector[8](1)` is an arithmetic shift, but with `class Word(BitVector[8])`, `Word(0x80) >> SIntVector[8](1)` is a logical one |
| C131 | `ite` on a class derived from a sized class and a subclass of it raises `TypeError` |
| C132 | `issubclass(B(A(T)), A)` and `isinstance(x, A)` for `x` of type `B(A(T))` are `False`, although `A` is one of `get_all_modifiers(B(A(T)))` |
| C133 | records of fields of different classes: after a signed field a plain one raises `TypeError`; after a plain field a signed one comes back plain |
| C135 | `if b:` on a `z3Bit` is always taken (no `__bool__`), and so is `if x:` on a symbolic vector of either library (only `__len__`) |
| C136 | `UIntVector[8](200) > SIntVector[8](1)` and `SIntVector[8](1) > UIntVector[8](200)`; `BitVector[8](200) < SIntVector[8](5) < BitVector[8](10) < BitVector[8](200)`; with z3 `x in l` is `True` for every nonempty `l` |
| C137 | `x.bvurem(d) is x` tells whether `d` is zero, in simulation only |
| C138 | with `class Word(SMTBitVector[8])` (or z3) the conversion `SMTBitVector[16](w)` raises `AttributeError`, which the concrete `BitVector[16](w)` does not; slices, `concat`, extensions, `bvcomp`, `adc` as in C131 |
| C139 | `SMTBitVector[2]([p, q])` and `x.adc(y, p)` raise `TypeError` for Boolean pysmt formulas `p`, `q`, though `SMTBit(p)` is taken; `z3BitVector` takes Boolean expressions |
| C140 | `b.ite(p, q)` raises `TypeError` for two z3 expressions, `x[i] = p` raises `ValueError` for a Boolean one |
| C141 | `SMTInt(x)` of a negative `SMTSIntVector` is its unsigned value: `SMTInt(SMTSIntVector[8](-1))` is 255, `int(SIntVector[8](-1))` is -1 |
| C142 | mixing `SIntVector[8](-1)` with a pysmt vector raises `ValueError` or `NameError`; `BitVector[16](3) + SMTBitVector[8]()` is accepted although the widths differ; `SMTBitVector >> SIntVector` is a logical shift, `BitVector >> SIntVector` an arithmetic one; `BitVector & SMTBit` is a bit, `BitVector & Bit` a vector; `z3BitVector[16](SIntVector[8](-1))` is 65535, `BitVector[16](SIntVector[8](-1))` is 255; `BitVector + z3BitVector` raises `TypeError` |
| C143 | `P(x) == P(y)` is `True` for all z3 vectors x, y of one width, and `S(x) != S(y)` is always `False`; with pysmt both raise `TypeError`, except that `P(x) == P(x)` is `True` for the very same object x; `S(BitVector[8](0)) == S(BitVector[16](0))` raises `InconsistentSizeError` for `S = Sum[BitVector[8], BitVector[16]]`; `S(Bit(1)) == S(BitVector[8](2))` is true, with `SMTBit` and `SMTBitVector` false |
| C144 | z3 raises `TypeError` where simulation and pysmt make a polymorphic vector |
| C145 | a class with a classmethod `_bitvector_t_` is not recognised; `isinstance(B(), A)` is `True` for any two classes that derive from `BitVectorProtocol` |
| C146 | a `Sum` of `M(Tuple[X])` and `M(Tuple)[X]` loses an alternative by a `rebind` that replaces nothing |
| C147 | `Bit(1).ite(SMTBitVector[8](), SMTUIntVector[8]())` raises `TypeError` although either family alone has polymorphic vectors; `SMTBit().ite(BitVector[8](1), BitVector[8](2))` raises `AttributeError`; `z3Bit().ite(Bit(0), Bit(1))` is a vector of width 1; `z3Bit().ite(SIntVector[4](-1), BitVector[8](0))` extends by zeros, with a `z3BitVector[8]` as the other branch by sign |
| C149 | `x, y, *_ = P.enumerate()` of a `Product` with a vector field `a`: `x.a[0] = 1` changes `y` as well, `x.a is y.a` |
| C150 | `class E(Enum): unbound_t = 0` raises AttributeError; `P.unbound_t` of a `Product` with that field is not its type; fields `rebind`, `from_fields` hide the methods; a field `Match` breaks all reads of a `TaggedUnion`; an Enum member `name` breaks `repr`; a method of a base class hides the field of a `Product` |
| C151 | replacing `if` by `ite` makes a function raise when a branch that is never taken raises; `z3Bit.ite` cannot merge two bits into a bit |
| C152 | `repr` of a Product with a vector field prints the number only, and of a TaggedUnion prints `=None` for the other fields, so neither can be evaluated; `Tuple[()]` prints `Tuple[]()` |
| C153 | a function whose returns have different types runs with `if` and raises after the rewriting |
| C154 | a loop that makes a vector longer runs in simulation and cannot be unrolled for a solver |
| C155 | `rebind_type` makes signed and unsigned vectors `BitVector`s: constructors accept or reject other values after it |
| C156 | `any`, `all` and `in` are `True` on every z3 vector; `2 in x` raises `ValueError`, `sum(x)` `TypeError` |
| C157 | `copy.copy` and `copy.deepcopy` raise `TypeError` on every `Product` with fields, and on what holds one |
| C157 | the deep copy of an enum member made with `new_instruction()`, or of a value that holds one, is not equal to the original |
| C158 | an ADT value in a dictionary (or set) is lost once a field of it is assigned, even the value it has: neither it nor an equal object finds or deletes the entry |
| C159 | a class with an ordinary mixin between two vector bases can be accepted by Python and yet raise TypeError (no consistent MRO) when sized, in a subclass; without such mixins sizing never fails |
| C160 | a modifier raises TypeError on an enum with members that derives from an enum with members (modifiers.py:50-54, adt_meta.py:255-264); it applies to every other class that has no ancestor made by it |
| C161 | `class P(Product, M): x = A` puts the mixin `M` before `Tuple` in the MRO (so `M.__eq__` wins), `class P(Product, M): pass` after it; `class P(Product, AnonymousProduct)` is legal without fields, a TypeError with them |
| C60 | `AnonymousProduct.rebind` raises `TypeError`; a class body is lost; a modified Tuple `M(Tuple[A])` becomes `M(Tuple)[A]`, which is not a modified class; `M(P).rebind(A, B)` of a Product is a subclass of `M(Product)` named `MP`, not a modified class either |
| C61 | the last also for `rebind_bitvector` without `keep_modifiers` |
| C64, C65 | `strip_modifiers`/`push_modifiers` on an `AnonymousProduct` raise `TypeError`; they lose class bodies; `push_modifiers` raises when a modifier occurs twice on a path |
| C66 | `visit` calls `visit_leaf`, the base class defines `visit_Leaf`: `AttributeError`; the instance visitor skips `None` and visits the value of overlapping alternatives twice |
| C88 | `rebind_keep_modifiers(Tuple[Tuple[A], Tuple[Tuple[A], A]], A, B)` leaves an `A`; a modified sibling field loses its modifier |
| C89 | `rebind_type` of a modified type raises `NameError`; modifiers on vector and bit fields are dropped |

## Not modelled

* Warnings (except about truncation, C126, and flushing, C127), `repr`/`str` output (except `binary_string`, `serialize` (C112) and ADT values (C122)), pickling, docs.
* gmpy2, pysmt and z3 themselves (assumptions above).
* `modifiers.make_modifier` class-creation side effects beyond the class heap.
