# Formal model of ELC-lang/ELC in Lean 4

## 1. Layout

* `properties.jsonl` – the properties, in terms of the API.
* `lean/Verif/<Area>/Model.lean` – executable model of the code of one area.
  Each definition cites the file and lines of `/repo` it follows.
* `lean/Verif/<Area>/Spec.lean` – the small, separate specification used in the theorem statements
  (positional value, list edits, rational value, …).
* `lean/Verif/<Area>/Lemmas*.lean` – helper lemmas.
* `lean/Verif/<Area>/Props.lean` – the property theorems, with `example`s that
  instantiate hypotheses on concrete non-trivial data, and refutations
  (`…_refuted`) with concrete witnesses where the code does not have the property.
* `MANIFEST.json` – property → theorems.
* `seeded/LOG.jsonl` – mutation attempts against the model.

Path abbreviations used in the Lean comments:
`F/` = `parts/header_file/files/elc/_files/`, `S/` = `parts/_share/`.

## 2. Method

The model consists of total, computable Lean functions following the C++
function by function. The relevant conventions:

* Machine words are either `BitVec n` or naturals with an explicit `% 2^w`
  where the C++ arithmetic wraps. `size_t` quantities that only index memory
  which must exist (lengths, positions) are `Nat`; this is a stated simplification
  (a buffer never holds 2^64 elements).
* Undefined behaviour, out-of-bounds reads and missing `return`s are a distinct
  outcome (`Option`/`Except`), never a default value.
* Loops become structural recursion or well-founded recursion; loops that may run forever
  are given either fuel with a theorem about sufficiency, or a step relation.
* Bignums: lists of digits, least significant first, digit base `2^w`
  for an arbitrary `w` (the code picks `unsigned char` in debug builds and a wider
  type otherwise).
* Hash functions, comparators and "is this node uniquely owned" answers are
  universally quantified parameters.

When a property is false of the code, the full statement stays in
`properties.jsonl`, the largest true part is proved under a name ending in
`_partial`, and the failing case is proved as a theorem ending in `_refuted`.

## 3. Trusted base

* Lean's kernel (4.33.0) and the three standard axioms `propext`,
  `Classical.choice`, `Quot.sound`. No others; no compiled evaluation is trusted.
* The reading of the C++ sources expressed by the model definitions.
* Facts about the C++ abstract machine used in the model: unsigned arithmetic wraps,
  two's complement, `unsigned char` has 8 bits, `size_t`/`hash_t` have 64 bits.

Not modelled: template dispatch and overload resolution, exceptions thrown by element
constructors, compile-time evaluation, logging, OS facilities, the dynamic
loader, the `core` node evaluator beyond what is listed below.

## 4. Plan per property

| Id | Modelled | Proof idea |
|----|----------|------------|
| C01 | ctor from unsigned, `convert_to`, `shrink_to_fit` on digit lists | induction over digits; `Nat.mod`/`div` identities |
| C02 | `operator==`, `compare` | normalised lists: length order = value order, induction |
| C03 | mixed `==`, `<=>` loops | partial: comparison with 0 / differing lengths; refutation by witness |
| C04 | `add_base`, `add_to_base` with carry, size prediction | induction with carry invariant |
| C05 | `add_to_base(data,T)` | partial for T no wider than a digit; refutation |
| C06 | `sub_base`, saturation | induction with borrow invariant |
| C07 | `add_one_to_base`, `sub_one_from_base` | `++` full; `--` partial (low digit non-zero), refutation |
| C08 | `muti_base`, `fast_muti_base`, `offset_add_to_base` | schoolbook exact; Karatsuba exact when no carry leaves the accumulator; refutation |
| C09 | `div_with_base_no_optimisation`, division loop, `no_mod_optimisation_of_div` | loop invariant; binary search invariant; refutation of the fast path |
| C10, C11 | shifts | value of digit lists under bit and digit offset |
| C12 | bit queries | induction |
| C13, C14 | sign/magnitude pairs over exact magnitudes | case analysis into ℤ; refutations |
| C15, C16 | numerator/denominator pairs with an aliasing flag | field identities in ℚ; refutations |
| C17–C19 | digit emission, Horner parsing, big splitting | induction on value / string; well-founded recursion on size |
| C20 | remainder-history loop | invariant on long division; partial for cycles that start at once and for terminating expansions |
| C21 | complement loop | loop invariant |
| C22 | block accumulation with wrapping scale | invariant over the digits read |
| C23–C25 | encoders/decoders on `Nat` bytes | arithmetic (`omega`) and induction over strings |
| C26, C27 | XOR of rotated hashes on `BitVec 64` | extensionality on bits; period of rotation |
| C28 | the four sorts on lists/arrays | permutation + sortedness by induction; depth limit arbitrary |
| C29, C30 | skip-table search over a memory larger than the range | no occurrence is skipped |
| C31 | table of marks and scans | induction |
| C32 | comparison loops | induction |
| C33, C34 | bit loops, bitset bytes | induction on width; refutations for shifts and equality |
| C35–C39 | integer algorithms on `Nat` | well-founded recursion with Mathlib number theory |
| C40–C42 | bucket lists, association lists, shared cells | refinement to finite function / multiset |
| C43 | blocks with free-index stacks | invariant |
| C44–C46 | rope datatype with all node kinds | structural induction, refinement to `List` |
| C47 | two-bit values plus unknown | exhaustive case analysis over the finite type |
| C48, C49 | rejection sampling, LCG step | induction on generator output; Hull–Dobell argument |
| C50 | buffer with reading position | refinement to list concatenation |
| C51 | heap with counts | invariant: count = number of handles |
| C52 | doubly linked heap | invariant |
| C53–C55 | the loops of C17–C22 with a stop position, fractions and signs | induction over the digits read; round trip of writing and reading |
| C56 | block accumulation of C22 with a point | value of the digits in ℚ |
| C57 | table of positions | induction over the table |
| C58 | array comparison in all calling forms | induction |
| C59, C60 | argument folds, rounded division | induction over the arguments; arithmetic |
| C61 | pairwise node comparison and the array-by-array loop over two trees | cursor invariant over both trees; structural induction for the fast paths |
| C62 | the printing loop | cursor invariant |
| C63 | `string_t` with its three storages above the node model of C44–C46 | refinement to `List`, by the node theorems |
| C64 | `==`, `<=>` with the sharing they do | case analysis over storages; node theorems of C61 |
| C65 | `push_*`, `+`, with the ownership of the operand | ownership flag on nodes; exact condition for the operand to change |
| C66 | hash of the three storages | C46 |
| C67 | `find`, `reverse_find` over views | C29, C31 on the characters |
| C68 | the replace loops | induction on the rest of the string |
| C69 | `starts_with`, `ends_with` | a part of a tree without inner erasures has none |
| C70 | flat copies, terminated and not | structural induction |
| C71 | `arec(index, delimiter)` | the two positions alternate |
| C72 | self-assignment, iterator ranges | ownership flag |
| C73 | blocks of cells (unused, alive, moved from), all array operations, several arrays; faults for everything undefined | refinement to named lists, operation by operation, then induction on the history |
| C74 | the same heap | ownership invariant: blocks and non-empty arrays correspond one to one |
| C75 | the same, with the source in the changed array | the old block is gone after growth |
| C76 | `remove` on the same heap | case analysis on the elements behind |
| C77 | `insert_with_resize`, forward, with used size | block layouts; witnesses where the places are wrong |
| C78 | values, their data cells and replacements as a heap of numbered cells | refinement to names for places; every chain of replacements ends |
| C79 | the same heap; a read moves the pointer of the value read | simulation with and without the read |
| C80 | the shared null data cell | refinement; witness |
| C81 | `code_list::be_eval` on that heap | induction on the run of the list |
| C82 | heap of nodes; `eq_with` with its levels; payload types as parameters | case analysis; equivalence and hash from the laws of the payloads |
| C83 | `equal_with`, pairs, common nodes as maps, functions, constants | equality of maps is extensional equality (induction on records) |
| C84 | `make_list`, going through a list | induction on the list |
| C85 | `cons::arec` as steps on the heap of area Val | the run step by step on a reachable state |
| C86 | the map of kept nodes with changes and replacements | invariant of histories |
| C87 | heap of counted objects; sweep with destructors, their cascades and the iterator that moves on first | invariant of the counts during cascades; a set that holds itself is an invariant |
| C88 | root pointers and `roots_of` as a history | induction on the history |
| C89 | `gc_t` with numbers of objects per type | induction on the added types |
| C90 | function variables, counted data, calls that run while functions change; callable types as a parameter | simulation by a machine without counts; counting invariant |
| C91 | the thread's own and the global pointer of `_func_ptr_value` under interleaved actions of threads | invariants of histories |
| C92 | the constants of `float_info.hpp`, fields of the bits, `get_precision`, `get_exponent` | arithmetic of the fields against the IEEE 754 meaning |
| C93 | `make_float` with shifts and ranges, undefined shifts | normalisation lemma; truncation in units of the last place |
| C94 | `ubigfloat::convert_to` with its division loop | loop invariant on the quotient; rounding down to a finer grid |
| C95 | `to_divide` with IEEE 754 arithmetic (rounding to nearest), `ubigint(T)`, `ubigfloat(T)` | monotonicity of rounding; composition with C94 |
| C96 | C53's reader followed by C94 | composition |
| C97 | `to_string_base` of native numbers: guess of a fraction, digits in even and odd radix, rounding to the digits of the type, shortening | loop invariant (error below one unit of the last digit, or the number still converts to the printed one); composition with C54, C94, C95; measure for the end |
| C98 | `integer_log` on big integers and modulo `2^t` | loop invariant, recursion on the powers; refutation by unfolding until the power is zero |
| C99 | the trie lookup macros over the whole array, reads outside it distinct | kernel evaluation of every element of the index, general lemma from elements to characters |
| C100 | the classes over the lookup | the same evaluation compares the categories Nd, Z*, Cc, Cf, Co, Cs of every code point with ranges from Unicode |
| C101 | as C100 | every category checked, C100's ranges |
| C102 | as C100 | the 128 characters checked |
| C103 | the converting output stream over the encoders of C23–C25 | induction over the text |
| C104 | the converting input stream with its window, a list of how much the stream below delivers each time | soundness by induction for every delivery; witnesses; exact condition for one character by prefix-freeness |
| C105 | `>>` of a string over a stream that ends or does not | equal to splitting at white space |
| C106 | `getline` and `endline` | exact characterisation, then induction over lines |
| C107 | `in_impl_t::read`, `unread` with unread cells as `none` | induction over histories with the high-water mark |
| C108 | views as position and size in a block of memory | lists; case analysis of the clamping |
| C109 | the six `substr` with `size_t` arithmetic | as C108; witness and exact condition for the wrong one |
| C110 | `starts_with`, `get_length_of` over memory | induction over the index |
| C111 | `constexpr_str_t` with the tables of C57 and C31 | from C31 and C57 |
| C112 | `sqrt_to_new_ε` over ℚ, number of turns as a parameter | Newton step over ℝ: error identity, halving above the root |
| C113 | `sin`, `cos` over ℚ | alternating series from the place where the terms shrink; (2N+1)! ≤ (N+1)^(2N+1) bounds the last term |
| C114 | `exp_impl`, `log_impl` over ℚ | induction: the terms are never zero |
| C115 | `arctan` and relatives over ℚ | the loop computes partial sums of x - x²·Σ; alternating series; witnesses |
| C116 | the members and functions of `π_with_ε_impl_t` over ℚ | invariant over all histories; alternating series with terms shrinking a millionfold; interval bounds against Mathlib's bounds of π |
| C117 | `reverse_sign`, `copy_as_negative`, compile time `trunc`, `ceil`, `floor` over ℚ | case analysis; floor and ceiling of Mathlib |
| C118 | `memory_stream` with block, size and position; addresses of blocks given from outside | refinement to a file (bytes and position), invariant over histories |
| C119 | the same | witnesses; exact conditions for leaving the block |
| C120 | `operator<<`, `operator>>` of integers and bools on text streams, over the models of numerals (Numeral) and words (Stream) | induction on the sequence; words end at white space |
| C121 | reading a bool | case analysis on the word |
| C122 | reading integers | exact condition for the undefined case; witnesses |
| C123 | name spaces as a heap of nodes with tables; `get_symbol_namespace` with fuel | induction on the chain of name spaces; circles as witness |
| C124 | `inter_namespace`, `leave_namespace` | case analysis; induction on movements |
| C125 | assigning through the value `get_symbol` gives | frame lemma of tables |
| C126 | cells with next pointers in one memory for any number of stacks; `data_t**` as place | refinement to lists with addresses; invariant: chains are disjoint and cover all cells |
| C127 | blocks as cells with and without elements, constructors with a clock that says which call throws, lost blocks | the exact outcome of every function at every moment (`outcome`), by induction on the loops; counterexample |
| C128 | the functions that move elements to a larger block | from `outcome`: what is left is the same exactly if the first move throws |
| C129 | the destructor on what is left | from `outcome` and a characterisation of when the destructor is defined |
| C130 | the `noexcept` condition of every function | from `outcome`, case analysis on functions and traits |
| C131 | nodes, functions of the host as trees, the loop of `code_list` with its `catch` | an ideal evaluation as a relation; agreement by induction on runs without jumps out of lists; a family of loops, by induction on the rounds |
| C132 | the same; the answers of code lists share one place (from area Val) | the same induction, with the shared place in the invariant |
| C133 | the same | induction on the steps |
| C134 | `expr::be_eval`, `be_call` | unfolding; a program whose head is an expression |
| C135 | `car_of`, `cdr_of` and truth of every kind of node | induction on the list; an invariant that is never left |
| C136 | `alloc`, `aligned_alloc` and the size in front of the block, over memory of bytes and a C library that may answer anything it promises | an invariant of all histories: blocks are the arrays with their headers, apart from each other; two sizes that wrap |
| C137 | the same, with `get_size_of_alloc` and `copy_alloc` | the invariant: the header holds the bytes asked for |
| C138 | `realloc` over both kinds of C library | the invariant; answers of `::std::realloc` that break alignment and move |
| C139 | `free` | the invariant |
| C140 | `count_info` modulo 2^64 | the invariant; arrays that are apart have fewer than 2^64 bytes |
| C141 | `basic_read_impl`, `unreadable_wrap::read`, `peek`, `get` over a system that delivers any portion or an error | induction on the history; errors and large sizes as counterexamples |
| C142 | `basic_seek_impl`, `basic_tell_impl`, `seek_to`, on both systems | cases; peek before seek, and 32 bit offsets, as counterexamples |
| C143 | `basic_write_impl`, `write` | the file byte by byte; a write carried out in part as counterexample |
| C144 | handles given, kept and closed by streams | an invariant of all programs; `close` and handle 0 as counterexamples |
| C145 | `to_char_str`, `to_char_t_str` over a locale as ISO C asks for, with UTF-8 and ASCII as instances | induction on the text; the character 0 and the locale `"C"` as counterexamples |
| C146 | `to_char_t_str` with `mbrtoc32` reading byte by byte from a memory | every byte sequence falls into one of four cases, each decided |
| C147 | `file_exists`, `load_library`, `get_symbol` up to the question to the system | by C145; names with the character 0 as counterexample |
| C148 | the four kinds of iterators and `begin`, `end`, `rbegin`, `rend` of arrays and strings, loops that read and assign | induction on what is left of the container |
| C149 | `operator+`, `operator-`, `++`, `--` as the code steps | induction on the steps |
| C150 | the loop over a bit set byte by byte | induction; the end is never met |
| C151 | `times_provider_t` over all integer types with their overflow | induction on the counter |
| C152 | `is_safe_convert_to`, `convert_to` of digit arrays, with the comparison with native numbers and `get_bitnum` as they are | positional values, and that "greater" is told rightly at the upper end of a type |
| C153 | the same for sign and digit array, with `abs` and `copy_as_negative` of native numbers | cases of sign and width; congruences |
| C154 | the same for fractions over natural numbers | rational values; congruences |
| C155 | `operator/` and `operator%` with a native integer on the left, with `abs`, `copy_as_negative` and conversion back | signs and absolute values of truncating division; which results the type has |
| C156 | all `pow` with big bases: the loop on fractions, and the sign and inverse around it | invariant of repeated squaring in rational numbers; integer powers of rationals |
| C157 | `divmod`, `ceil_div`, `sub`, `is_odd` with the promotions of the language | truncating division against the ceiling in rational numbers; congruences |
| C158 | `between_0_and_1_exclusive`, `between_0_and_1_inclusive` over given draws, on the bytes of the formats | exact division by powers of two; monotony of rounding; the midpoint below a power of two |
| C159 | `between`, its difference, product and sum, each rounded | monotony and exactness of rounding to nearest |
| C160 | reading through `floating_arec_t_impl` with `linear_interpolation`, over any rounding that keeps order and short numbers | monotony of the rounding; exactness of short products |
| C161 | assignment through it | errors of rounding down, weighted by the line |
| C162 | `to_string_NaN_handle` and the part of `from_string_get_unsigneded` for NaN, with the bytes in memory | fields and separators by induction; digits base 256; round trip of native numbers |
| C163 | `to_string_Inf_handle` and its reading | cases of the sign |
| C164 | the same reading, on any text | every text is a list of fields; induction over the fields |
| C165 | `to_string_base` of a `ubigint` over the digit arrays of Ubig | induction over the depth, with the exactness theorems of C08 and C09; delivery by a size condition on the split point, checked for the whole table of sizes; witnesses evaluated by the kernel |
| C166 | `from_string_get_unsigneded` of a `ubigint` over digit arrays | refinement of the exact reading of Numeral, by induction over the depth |
| C167 | `type_name_t`: demangling, copies, moves, destruction, over blocks of `malloc` | refinement of objects that simply hold texts, by an invariant over histories (each block has exactly one owner) |
| C168 | the size `__cxa_demangle` reports | direct |
| C169 | `get_function_name` on Linux, `demangle_name` on Windows | direct; the position of the parenthesis by the first index lemma |
| C170 | the guard, the frame it keeps and the cached file and line | invariant over histories, against the outermost place of a stack of operations |
| C171 | the pointer the debug library keeps | the same invariant; witness with two operations |
| C172 | `library_info_t`, handles, functions that hold handles, the open counts of the system | refinement of values without counters; invariant: each counter is the number of variables that refer to the object, each open count the number of live objects |
| C173 | `get_symbol_as_function`, the constructor of the loader of packages | from the same invariant; cases |
| C174 | the draft of the package manager: needs, lists, choices, with all outcomes chance allows | induction over trees of needs; a list grows by new packages that can be found only |
| C175 | the same | the same induction |
| C176 | the two exceptions | induction; with nested choices a witness |
| C177 | the selection of the shortest and most installed lists, with its erasing loop | the loop is shown to be a `takeWhile`; witness with two packages |
| C178 | the six counters, kept modulo 2^64, and the sizes of the blocks | invariant over all histories; witness with a clearing |
| C179 | `bigint` over the digit arrays of the `Ubig` model | refinement to the model on natural numbers, with the theorems on digits |
| C180 | `ubigfloat` and `bigfloat` over digit arrays | refinement to the model on natural numbers; every delivered result is exact |
| C181 | `binary_gcd` as a loop on digit arrays, `simplify` | the loop simulates the one on numbers; exact division by a divisor |
| C182 | `trunc` and `split` over digit arrays | the exact characterisation of short division |
| C183 | `find_first_of` and its relatives on every stored form | the view of a string is its text, then C31 |
| C184 | the two compile-time tables of prime factors: counting loop and filling loop | both loops simulate the run-time factorisation (C39) |
| C185 | `quick_sqrt` on the bytes of the three native formats | the halved bytes read as a number, against the root, by cases on the parity of the exponent |
| C186 | the loop of `sqrt` with its roundings, run time and compile time guesses | every step from above goes down or stays; no cycle between neighbours; what a fixed point or a small last change says of the root |
| C187 | the integer overload of `sqrt`, its cast, and `is_prime_num` with it | C186 on integers; the bounds discharge the hypothesis of C37–C39 |
| C188 | `quick_invsqrt` on the bytes, with the magic numbers of the three formats | fields and fractions of the difference; the cubic `t·z²` bounded on three segments |
| C189 | the loop of `invsqrt` with all its roundings | relative error of each rounding; a step squares the error; seven steps reach the last bits; the cycles that never end are run by the kernel and closed by induction |
| C190 | compile-time `trunc`, `ceil`, `floor` on sign and bytes, with their casts | integer part and fraction of a number are exact; the results as values of `⌊x⌋`, `⌈x⌉` |
| C191 | repeated `do_iteration` of the object for π | ratio of the terms of the series; a Newton step squares the relative distance; invariant that ties the count of root steps to the count of digits |
| C192 | `hash` of native numbers, digit arrays, signs and fractions, on top of the array hash | closed form of the array hash, zeros in front contribute nothing; uniqueness of digits and of lowest terms; whole part of a float |
| C193 | the four shifts of `ubigint` and `bigint` for signed native counts and for counts that are big integers | reduction to the digit-level shifts of C10/C11; the count is shown to be taken modulo `w * 2^64` |
| C194 | `die`, `die_with` and the console functions; the error stream with its orientation, arrays of 2048 units | induction over the conversion loops; exact closed forms of what is shown for each system |
| C195, C196 | the mode of a terminal as shared state, the steps before and after a read as steps of threads, all schedules | induction over schedules and over nestings; invariant that every mode seen or kept is one of two |
| C197 | `arec_as_value` with its `use_as` conversions, nodes that can be released, histories of assignments | induction over histories: last assignment wins; exact set of undefined reads |
| C198, C199 | `equal`, `compare`, `max`, `min` with the conversions of the language: integer types of any width, floating point numbers as NaN or a place in the order | conversion lemmas for every pair of types, then induction over the arguments |
| C200 | the two time points of `debug_timer_t`, histories of calls with any readings of the clock | invariant that ties the time points to a stopwatch and the error to the superfluous calls |
| C201, C202 | the wrappers of `std::istream` and `std::ostream` over the members of the C++ library they call, with error bits and skipping of white space | characterisation of single calls, induction over portions and histories against a file |
| C203 | `super_speed_trivial_copy_from_one` over bytes of memory with `memset`, `wmemset`, `fill_n`, types as a size and a conversion; the calls in `construct`, `copy_construct`, `copy_assign` | closed form of each way of filling by induction over the elements; case analysis over the exponents of `float` |
| C204 | `operator<<` for `std::basic_ostream` with width, alignment, the loops that fill up, the string in pieces | induction over the loops and the pieces against one write of the whole field |
| C205, C206 | `copy_assign`, `move_assign` and `may_overlap` of `n` elements in one memory, with the traits that choose between bytes, the own assignment and making anew | invariant of the loop that goes from the back; periodic closed form for overlapping ranges; the whole table of traits |
| C207 | `to_string(bitset<N>, repres)`: the conversion to a big integer, its text and `pad_left`; `operator<<` of text streams | digits of the padded text by induction on the text from its end; lengths from the bounds of positional values |
| C208 | `tan`, `cot`, `sec`, `csc` as quotients of the modelled `sin` and `cos`; a zero divisor is an outcome of its own | error of a quotient from the errors of its parts; irrationality of π for the poles |
| C209 | classes as trees of bases; the rule for handlers of pointers; `was_an`, `maybe_fail_use_by_ref_as`, `const_use_by_ref_as` | the list of sub-objects is exactly the relation of the specification, without repetition, by mutual induction over classes and lists of bases |
| C210 | the branches of `as_ptr` for characters and integers, with conversion of the payload; `use_as` of types that are no classes | ranges of all types, each case by linear arithmetic; `…_refuted` for reading an `int` |

## 5. What is modelled

| Area | Code | Left out |
|---|---|---|
| Hash | F/base_defs/hash.hpp | `std::type_info` hashing |
| LogicalBool | F/base_defs/logical_bool.hpp | – |
| Utf | S/char_set/convert.hpp | streams of characters |
| Sort | F/base_defs/sort.hpp | element moves that throw |
| Bits | F/base_defs/bit.hpp, bitset.hpp | intrinsics (their portable versions are modelled) |
| Ubig | F/bignum/bignum/ubigint.hpp, S/basic_environment/add_sub_carry.hpp | allocation; floating-point construction (in Float) |
| Bigint | F/bignum/bignum/bigint.hpp | magnitudes are exact naturals (C01–C12 say when that is right) |
| Bigfloat | F/bignum/bignum/ubigfloat.hpp, bigfloat.hpp | as Bigint |
| Numeral | F/numerical_representation | locale-like tables other than the ones quantified over |
| Literal | F/base_defs/literal_support.hpp, F/bignum/bignum/literal.hpp | compile-time evaluation itself |
| Search | F/base_defs/range.hpp | iterators that are not pointers |
| Compare | F/base_defs/compare.hpp, min_max.hpp | – |
| Arith | F/base_defs/math.hpp | floating-point functions (see Series) |
| Table | F/base/container/hash_table, map | iterators kept across changes |
| Random | F/random/defs.hpp | seeding from the environment |
| Ptr | F/base/memory/ptr/ptr/base_ptr_t.hpp | threads |
| Links, Pool | F/base_defs/list.hpp, F/base/memory/pool | alignment |
| Cow | F/base/container/copy_on_write | – |
| Pushback | F/base_stream/unreadable_wrap, F/base/container/array (as far as used) | streams themselves |
| Str, StrCmp, StrEdit | F/string/string_data_t | threads; allocation failure; balancing (`equivalent_optimization`) of nodes that never changes characters |
| Text | F/string/defs.hpp | iterators, `getline`, streams; two overloads of `find_*_not_of` that do not compile are read as the ones that do |
| Arr | `base/container/array/defs.hpp`, `base/memory/get/defs.hpp`, `base/memory/alloc/defs.hpp`, `base_defs/memory/lifetime/defs.hpp` | exceptions (area Throw), failed allocation, element types of mixed triviality, iterators and views of arrays, sizes near 2^64 |
| Val | `core/base_def/value.hpp`, `base/memory/other/replace_able.hpp`, `base_ptr_t.hpp` (replacement), `core/nodes/code_list.hpp` | when cells are freed, data types written by users, nested code lists |
| Node | `core/base_def/node_like.hpp`, `core/nodes`, `core/special_values` | when nodes are freed, evaluation of expressions and functions, payloads and `==` written by users (parameters), cyclic maps |
| Gc | `base/memory/gc`, `base/memory/other/can_map_all.hpp`, `base/memory/ptr/ref` | `shrink` and `map_and_mark_for_gc` of the program (the second is a hypothesis), weak pointers, collection started by a failed allocation |
| Func | base/container/function/base_function_t.hpp (the branch for compilers other than MSVC) | conversions between function types with other noexcept, exceptions, data races inside one action, relaxed memory order |
| Float | S/basic_environment/float_info.hpp, after_math.hpp:150-317, ubigint.hpp:80-87, ubigfloat.hpp:44-156, to_string/_body.hpp:564-607 (numbers) | negative numbers, NaN and infinity as arguments, `long double` of 80 bits, the processor's arithmetic (taken to be IEEE 754, round to nearest) |
| FloatText | F/numerical_representation/to_string/_body.hpp:251-426, F/base_defs/math.hpp:277-296 | negative numbers, NaN and infinity; the number of digits is computed exactly instead of with `log`; types other than `float`, `double`, `float128_t` |
| Chars | S/char_set/isX.hpp, marcos/_defs.hpp, constexprs.hpp, props_data.hpp | – |
| Stream | F/base_stream/base_streams/_body.hpp (peek, get, null stream), F/base_stream/operators/_body.hpp:49-53, 97-112, F/string/defs.hpp:1045-1127, F/stream/defs.hpp:88-161, 275-334 | the operating system's handles; the commented-out line editing of `>>` |
| View | F/base_defs/array_like.hpp:76-172, F/base_defs/string_view.hpp:124-160, F/base_defs/constexpr_str.hpp:65-86, 133-207 | pointers before the start of an array are integers; the searches of a view are those of area Search; comparisons those of area Compare |
| Series | F/base_defs/math.hpp:54-121, 196-275, 322-362, 415-464, 1020-1158, 1196-1239 | native types (except the compile time rounding); `tan`, `cot`, `sec`, `csc`; `quick_sqrt` (any positive guess is allowed for); big fractions are rational numbers (C15, C16) |
| Memfile | F/memory_stream/memory_stream.hpp:31-91 (the file is unfinished and does not compile as it is; slips that keep it from compiling are read as meant) | failed allocation |
| Textio | F/_multi/arithmetic_text_io.hpp:33-129, F/numerical_representation/representations/bool.hpp:34-63 | floats, bit sets and pointers; streams with their own representation |
| Names | F/namespace/defs.hpp:34-86 with the indexing of nodes it uses | the counting of references (areas Ptr and Gc) |
| Stack | F/base/container/stacks/base_stack.hpp:31-166, auto_stack.hpp:31-69 | failed allocation and exceptions; moving the top of a stack to itself |
| Throw | F/base_defs/memory/lifetime/defs.hpp:131-262, 353-410, 461-531, F/base/memory/get/defs.hpp:64-125, 267-330, 480-578, 610-712, 760-783, 868-887, F/base/container/array/defs.hpp:46-138, 244-262, with exceptions | trivial types, destructors that throw, failed allocation, elements of the array given to its own functions |
| Eval | F/core/nodes/code_list.hpp:31-60, expr.hpp:39-41, base_binary_function_node.hpp:31-71, cons.hpp:31-36, F/core/base_def/node_like_using_value_func_defs.hpp:32-37 | programs that change their own nodes, strings as lists, the unfinished functions in `core/base_funcs`, values kept by host functions across evaluations |
| Alloc | S/APIs/alloc.hpp:75-271, S/APIs/alloc/default_method/overhead.hpp:31-62, F/base/memory/alloc/default_method/defs.hpp:119-152, F/base/memory/alloc/defs.hpp:99-218 | the C library itself (a parameter with the promises of its standard), the collector run between two attempts, records of places for debugging |
| File | S/APIs/streams.hpp:165-193, 242-288, F/stream/base_fstream/_body.hpp:36-113, F/base_stream/unreadable_wrap/_body.hpp:67-90 | the operating system itself (its table of handles and its files are part of the state, its portions and errors are parameters), terminals, `is_eof` |
| Codec | S/APIs/str_code_convert.hpp:43-77, S/paths.hpp:57-69, S/APIs/library_load.hpp:101-114 | the C library itself (its locale is a parameter of which ISO C's promises are assumed, and shown for UTF-8 and ASCII), locales with shift states, the answers of the system |
| Iter | F/base_defs/iterator.hpp:94-103, 183-207, 224, 240-272, F/base/container/array/defs.hpp:153-187, F/string/defs.hpp:507-544, F/base_defs/bitset.hpp:33-98, F/base_defs/other.hpp:95-118 | `<=>` of iterators, containers that change their size during a loop |
| Convert | F/bignum/bignum/ubigint.hpp:88-122, bigint.hpp:72-105, ubigfloat.hpp:75-99, bigfloat.hpp:60-77, F/base_defs/math.hpp:67-82 | conversion to `bool` and to floating point types (the latter are in Float) |
| Native | F/bignum/bignum/ubigint.hpp:1285-1294, bigint.hpp:387-396, ubigfloat.hpp:477-525, bigfloat.hpp:348-405, F/base_defs/math.hpp:56-82, 131-162, 193-222, 309-325 | operands of two different native types |
| Uniform | F/random/defs.hpp:260-276, 309-332 | the generator itself (its draws are parameters; it is in Random), the computation of the divisor by the compiler (a parameter in `exclusive_divisor`), the sign of zero |
| Interp | F/string/defs.hpp:380-443, F/base_defs/math.hpp:603-622 | NaN and infinities; the arithmetic of `double` itself (a parameter of which monotony and exactness for 53 bits are assumed) |
| Special | F/numerical_representation/to_string/_body.hpp:190-256, 563-607, 693-706, F/numerical_representation/representations/comn.hpp:85-97, 219-229, F/base_defs/math.hpp:34-49, 66-82 | finite numbers (in Float and FloatText), `ubigfloat` |
| Print | F/numerical_representation/to_string/_body.hpp:150-188, 616-660 with the digit arrays of Ubig | the floating point expression in the division (a parameter), signs (in Numeral) |
| Symname | F/base_defs/type_name.hpp:31-107, S/APIs/function_name.hpp:64-148 | the demangler, `dladdr` and the debugging library of Windows (parameters) |
| Origin | S/APIs/alloc/debug_info/source_location_guard.hpp:38-87, S/APIs/alloc.hpp:134-152 | how a stack trace is taken (a parameter), exceptions |
| Lib | F/lib_loader/lib_loader.hpp:37-141, S/APIs/library_load.hpp:63-114, F/package_symbol_loader/package_symbol_loader.hpp:31-54 | the system (a parameter), names of libraries and their conversion, error texts |
| Package | parts/header_file/draft/package_manager/defs.hpp | what the system says about packages (a parameter); chance (all outcomes) |
| Count | S/APIs/alloc.hpp:73-96, 208-264, built with `ELC_TEST_COUNT_MEMORY_ALLOC` | threads |
| Wide | F/bignum/bignum/bigint.hpp:39-341, ubigfloat.hpp:32-466, bigfloat.hpp:40-337 and F/base_defs/math.hpp:911-1013, over the digit arrays of Ubig | native operands, aliasing |
| Sqrt | F/base_defs/math.hpp:363-480 (`sqrt`, `quick_sqrt`, `quick_invsqrt`, `invsqrt`), S/basic_environment/float_info.hpp magic numbers | negative numbers, NaN payloads, `long double`, the 16-bit formats |
| Whole | F/base_defs/math.hpp:327-363 (`trunc`, `ceil`, `floor` at compile time) | the run-time branches, which call the standard library |
| Numhash | F/base_defs/hash.hpp:142-151, F/bignum/bignum/ubigint.hpp:1257-1259, bigint.hpp:350-353, ubigfloat.hpp:500-502, bigfloat.hpp:372-375, F/base/container/hash_table/defs.hpp:43-45 | hashes of pointers and of types; `long double` and 16-bit formats |
| Shift | F/bignum/bignum/ubigint.hpp:859-861, 933-1018, 1072-1135, bigint.hpp:186-209, 257-266 (signed and big counts) | memory for results of left shifts; counts of type `bool` and of character types; `bigint` shifted by `bigint` |
| Die | S/APIs/die.hpp:50-190 | debugger breaks, message boxes of `_WINMAIN_`; `fputws` stopping at a character the locale cannot write |
| Term | S/APIs/streams.hpp:72-90, 289-342, F/stream/base_fstream/_body.hpp:101-155, F/stream/defs.hpp:225-262 | what is read and written (File, Stream); resizing and signals of terminals |
| Charat | F/_multi/string_arec_as_value.hpp:39-56, F/core/nodes/binary_node_t.hpp:93-109, 154-176 | how strings are stored (Str, StrEdit, Text); who holds nodes (Ptr) |
| Mixed | F/base_defs/compare.hpp:58-72, 163-198, F/base_defs/min_max.hpp:98-125, 207-234, with the usual arithmetic conversions | `bool`, integers together with floating point numbers |
| Timer | F/timer/defs.hpp:31-53 | units and conversion to floating point numbers, printing of durations |
| Stdwrap | F/base_stream/std_wrap/_body.hpp:34-205, and `read`, `tellg`, `seekg`, `write`, `tellp`, `seekp`, `sentry` of the C++ library as its standard and libstdc++ define them | tied streams, exceptions of streams |
| Fill | F/base_defs/memory/lifetime/defs.hpp:89-112, 136-170, 400-411, 616-624, F/base_defs/zero.hpp:46-54 | types of size 1 or 4 that cannot be converted to integers (the compiler rejects them) |
| Insert | F/string/defs.hpp:1153-1206 | exceptions of streams; `std::istream >> str` |
| Assign | F/base_defs/memory/lifetime/defs.hpp:54-77, 582-625, 662-735 | exceptions (see Throw); `move_assign` of one element |
| Bittext | F/numerical_representation/to_string/_body.hpp:725-728, F/_multi/arithmetic_text_io.hpp:42, 61-66, 93-97 | the arithmetic of big integers inside the conversion (see Ubig) |
| Trig | F/base_defs/math.hpp:1164-1194 | the calls without a precision (they pass the one of the type) |
| Cast | F/core/nodes/binary_node_t.hpp:70-72, 112-182 | virtual bases; types with `const`; access to `throw_self_ptr` in `was_an` |
| Asval | F/core/base_def/decl.hpp:104-111, 132-143, F/core/nodes/binary_node_t.hpp:154-176, S/default_data_type.hpp:32-40 | floats; text |

Every definition names its lines and its simplifications. Not modelled at all: the unfinished built-in functions in `core/base_funcs`, locks, `all_info_guard`-like debugging aids.

## 6. Where the code does not have the property

Each row is a theorem with a witness.

| Theorem | What goes wrong |
|---|---|
| `Alloc.alloc_count_refuted` | C136 is false when the number of bytes does not fit into `size_t`: 2^61 + 1 elements of 8 bytes are given room for one. |
| `Alloc.alloc_size_refuted` | C136 is false when the bytes fit but not the size kept in front of them: the C library is asked for 7 bytes, and 8 are written. |
| `Alloc.size_refuted` | C137 is false as soon as the bytes asked for do not fit into `size_t`: fewer elements are told than were asked for. |
| `Alloc.realloc_align_refuted` | C138 is false for alignments above 16 except on Windows: what `::std::realloc` may give, and what comes of it. |
| `Alloc.realloc_in_place_refuted` | C138 for shrinking "in place" is false: nothing keeps the C library from moving an array that gets shorter. |
| `Arith.factorize_zero_refuted` | C39 fails: the factorisation of 0 does not end. |
| `Arith.factor_table_refuted` | C184 fails: there are no tables for 1 and for 137. |
| `Arith.integer_log_native_refuted` | C35 fails for native types: `integer_log(2^64-1, 2)` does not return. |
| `Arith.factorial_refuted` | C35 fails when the end of the range wraps around: one factor, `2^32-1`, gives 1. |
| `Arith.binary_gcd_refuted` | C36 fails: `gcd(0, 12)` is 3. |
| `Arith.binary_gcd_wide_refuted` | C36 fails for wider types: with a second number other than zero the function always ends with a shift by the full width, which is undefined. |
| `Arith.euclidean_gcd_refuted` | C36 fails otherwise: `euclidean_gcd(0, y)` divides by zero. |
| `Arith.euclidean_gcd_signed_refuted` | C36 fails for numbers of different signs: `euclidean_gcd(-4, 6)` does not return a result. |
| `Arith.prime_at_least_refuted` | C38 fails: from 24 the next "prime" is 27. |
| `Arith.prime_at_most_refuted` | C38 fails: the greatest prime up to 12 comes out as 7, that up to 11 as 7, that up to 5 as 1. |
| `Arith.factorize_refuted` | C39 fails: the factorisation of 137 does not end. |
| `Arr.push_own_element_refuted` | C75. It is not so that an element of the array itself can be pushed: with a type that has a destructor `a.push_back(a[0])` reads memory already given back. |
| `Arr.insert_own_elements_refuted` | C75. Nor that part of an array can be inserted into it, even when its block stays where it is: the elements behind the position have been moved on, and the inserted ones are not those asked for. |
| `Arr.remove_refuted` | C76. It is not so that `remove` takes an element out of the array: with two elements behind it, it faults. |
| `Arr.remove_only_refuted` | C76. Nor that the array can be used after its only element was removed. |
| `Arr.forward_insert_resize_refuted` | C77. So it does not always give the array the size asked for, as `insert_with_resize` does. |
| `Arr.part_used_insert_refuted` | C77. With default values (and so with the elements behind the used part to be made), `with_used_size` makes them at the wrong place: the inserted elements are overwritten. |
| `Arr.part_used_forward_insert_objects_refuted` | C77. With the used elements at the end of the block the call never succeeds for elements with a destructor: it makes new elements over living ones, whatever the position, the elements and the size asked for. |
| `Assign.copy_overlap_refuted` | C205 is false of overlapping ranges. For bytes every overlap is undefined; for other elements a copy onto a range that begins one in front is right only if all elements of the source are equal; and an element that is destructed and made anew cannot be copied onto itself. |
| `Assign.fill_renew_refuted` | An element that is one of those assigned, of a type that is destructed and made anew, is read after its end. |
| `Assign.own_assignment_refuted` | C206 is false of the code. The own assignment of a type with a trivial copy constructor and a trivial destructor is not used: its bytes are copied, whatever its assignment does. |
| `Asval.round_trip_refuted` | C210 is false of the program: an `int` comes back as zero, and so does the character `'a'` as a `char_t`. |
| `Bigfloat.ufrac_div_assign_refuted` | C15 is false of the program: `x/=x` is not one unless the denominator of `x` is one; half divided by itself stays a half. |
| `Bigfloat.ufrac_simplify_refuted` | C15 fails in one corner: `0/4` is not brought to lowest terms. |
| `Bigfloat.ufrac_hash_refuted` | Equal fractions in different terms have different hashes (a finding beyond C15): the hash looks at the numerator and the denominator as stored. |
| `Bigfloat.frac_add_assign_unsigned_refuted` | C16 is false of the program: adding an unsigned number to a negative one in place subtracts it; `-5 += 3` is `-8`. |
| `Bigfloat.frac_sub_self_refuted` | C16 is false of the program: for every non-negative `x`, `x-x` is a negative zero and `x-x==0` is false. |
| `Bigint.add_refuted` | C13 is false of the program: `+` of two integers of different signs never returns. |
| `Bigint.add_assign_refuted` | C13 is false of the program: `x+=y` for `x ≥ 0 > y` leaves `x` as it was. |
| `Bigint.sub_assign_refuted` | C13 is false of the program: `5-=3` is 5 and `5-=-3` is 2. |
| `Bigint.sub_rvalue_refuted` | C13: subtracting a temporary of the same sign does not return either. |
| `Bigint.negative_zero_refuted` | C14 is false of the program: `*=`, `/=`, `%=`, `>>=` and negating a temporary make a negative zero, which is neither equal to zero nor ordered like it. |
| `Bits.all_bit_is_zero_refuted` | C33 fails for `all_bit_is_zero`: it answers the opposite for every word. |
| `Bits.bitset_eq_refuted` | C34 fails for equality when `N` is not a multiple of 8: `bitset<4>(1) == bitset<4>(2)` is true (the code compares the unused bits of the last byte instead of the used ones), and two sets with equal bits but different padding compare different. |
| `Bits.bitset_shift_refuted` | C34 fails for shifts of several bytes: `bitset<16>(0x80) << 1` is zero instead of 0x100, and `bitset<16>(0x100) >> 8` is zero instead of 1. |
| `Bittext.text_not_refuted` | C207 is false of the program for sets with unused bits: of a set of four bits made from zero, `~` sets all eight bits of the byte, and the text has eight characters, not four. |
| `Charat.set_other_refuted` | C197 is false of assignments of anything but a character: they make the character 0. |
| `Charat.index_other_refuted` | C197 is false of positions that are no integers: the first character is taken. |
| `Charat.negative_refuted` | C197 is false of negative positions: no string is long enough. |
| `Charat.outlive_refuted` | C197 is false of values that outlive their string: once nobody holds the string, reading and assigning are undefined, although the value is still there. |
| `Charat.shorter_refuted` | C197 is false of values that stay while the string becomes shorter. |
| `Chars.graph_print_refuted` | C101 is false where it says that graphic characters are printable: private use. |
| `Chars.cntrl_print_refuted` | C101 is false where it says that no control character is printable: U+2028. |
| `Chars.ascii_space_refuted` | C102 is false for white space: the separators 0x1c to 0x1f are white space here. |
| `Chars.ascii_punct_refuted` | C102 is false for punctuation: `+` is none here. |
| `Codec.c_locale_refuted` | In the locale a C program starts with, which nothing in ELC changes, the program dies at the first character that is not ASCII. |
| `Codec.round_trip_refuted` | A text with the character 0 is converted, but the conversion back never ends. |
| `Codec.cut_refuted` | Bytes that are not a C string may end in the middle of a character. Then what follows them in memory is read, and what happens depends on it: here the same bytes lead to reading where nothing is, to dying, and to going on for ever. |
| `Codec.zero_refuted` | A view of bytes with a zero in it is never converted. |
| `Codec.name_refuted` | With the character 0 in it, a name is taken for another one. |
| `Compare.compare_refuted` | C32 is false of the code. "ab" (zero-terminated) and "a" (sized, with a zero behind it) compare equal, and lexicographically too; without the zero the result is `less`, and with nothing behind the array it is undefined. Two zero-terminated strings: "bb" against "a" reads behind the terminator of "a", and gives `less` when a "b" was there. With signed characters "\x80" is below the empty string. |
| `Convert.ubig_safe_refuted` | C152 is false of the program: with digits of 32 bits the number 5 is not safe for a type of one byte. |
| `Convert.big_to_refuted` | C153 is false of the program: −5 becomes 5 in an unsigned type, and this is called safe. |
| `Convert.big_safe_refuted` | C153 is false of the program: asking whether a negative number fits `int` or a wider type is undefined. |
| `Convert.frac_safe_refuted` | C154 is false of the program for signed fractions: 3000000000 is called safe for `int` and becomes negative; −5 is called safe for `unsigned` and becomes 5. |
| `Count.clear_refuted` | C178 is false of the program: if the counters are cleared while a block exists, freeing it makes the memory in use and its maximum nearly 2 to the power of 64. |
| `Cow.handles_isolated_refuted` | C42 fails as it stands, in three ways: a reference kept across a copy changes the copy too; comparing values that compare equal but differ changes what a handle reads; and the constructor from arguments uses a null pointer. |
| `Die.die_shows_refuted` | C194 is false of `die`: after wide output to `stderr`, and on other systems, nothing at all is shown. |
| `Die.windows_long_refuted` | C194 is false: a message of 2048 letters writes behind the array. |
| `Die.linux_refuted` | C194 is false on Linux: whatever the message, nothing of it is shown, nor that ELC died, unless `stderr` was used for wide characters before. |
| `Die.linux_part_refuted` | C194 is false of a message that is only a part of a text: the rest is shown too. |
| `Eval.jump_out_refuted` | C131 fails: a loop made by a jump from an inner list to the beginning of the outer one does what comes after the loop once for every round, not once. |
| `Eval.return_refuted` | C132 fails: a list that returns at once answers with what another list answered before (9 is not `the_void`), and a return after an inner list answers with that list's answer. |
| `Eval.expr_head_refuted` | C134 fails for heads that are to be evaluated: the function that the head stands for is not called. |
| `Eval.dotted_list_refuted` | C135 fails: a list that ends with a number is never done, though it has one element only, a number. |
| `File.read_error_refuted` | C141 is false when the system reports an error: 2^64 - 1 characters are said to be read; with three characters held back two. |
| `File.read_large_refuted` | C141 is false on Windows for reads of 2^32 bytes: nothing is read, as at the end of the file. |
| `File.get_error_refuted` | C141 is false for `get` and `peek` when the system reports an error: what was in memory is given, and `peek` puts it into the stream. |
| `File.seek_held_refuted` | C142 is false for a stream that holds back data, as after `peek`: what was held back still comes first. |
| `File.seek_large_refuted` | C142 is false on Windows for large positions: `seek_to` 2^31 stays where it is, and `seek_to` 2^32 + 1 goes to 1. |
| `File.write_short_refuted` | C143 is false when the system writes only a part, or reports an error: the rest is never written, and nothing tells so. |
| `File.close_refuted` | C144 is false with `close`: the handle stays in the stream, and the system may give it to the next file. The end of the first stream then closes the second file, and what is written to the first one arrives in the second. |
| `File.zero_handle_refuted` | C144 is false for the handle 0, which the system gives when standard input was closed: the end of the stream leaves the file open. |
| `Fill.fill_refuted` | C203 refuted: an array made to hold ones of type `float` holds numbers stored as the integer 1. |
| `Fill.fill_undefined_refuted` | C203 refuted also for whether there is a result: filling with 2³¹ of type `float` is undefined, even no element. |
| `Float.decompose_refuted` | C92 fails for the two types of 16 bits: `1` comes apart as `3072·2^-19` and `384·2^-72`. |
| `Float.make_float_overflow_refuted` | C93 fails above the range: every number too great for the format becomes zero, not infinity. |
| `Float.make_float_underflow_refuted` | C93 fails below the range: far below, the behaviour is undefined. |
| `Float.make_float_small_refuted` | C93 fails for the types of 16 bits: `1·2^0` becomes `32768` and `2^127`. |
| `Float.to_native_nearest_refuted` | C94 fails: the result is not the nearest number; one tenth converts to a number that another one is nearer to. |
| `Float.to_native_ones_refuted` | C94 fails: an integer with more binary digits than the type has bits, all the leading ones set, becomes zero. |
| `Float.to_native_overflow_refuted` | C94 fails above the range: the result is zero. |
| `Float.to_native_underflow_refuted` | C94 fails below the range: the behaviour is undefined. |
| `Float.to_fraction_exact_refuted` | C95 fails: the fraction of the `double` written `0.1` is one tenth, which that number is not. |
| `Float.to_fraction_tiny_refuted` | C95 fails: for every positive number up to `2^-64` the behaviour is undefined. |
| `Float.round_trip_refuted` | C95 fails: there and back `0.1` is another number. |
| `Float.read_nearest_refuted` | C96 fails: `"0.1"` is not read as the `double` nearest to one tenth. |
| `Float.read_range_refuted` | C96 fails: `"36893488147419103231"`, that is `2^65-1`, is read as zero, `"1e-400"` is undefined, and `"1e400"` is read as zero. |
| `FloatText.text_sixth_refuted` | C97 fails: the `double` written `1/6` prints as `1/15`. |
| `FloatText.text_reads_back_refuted` | C97 fails: `0.1 + 0.2` and what is read back from its text are different numbers. |
| `FloatText.text_size_refuted` | C97 fails: for the `float` and the `double` worth `2^64` the behaviour is undefined. |
| `FloatText.text_tiny_refuted` | C97 fails: for every positive number up to `2^-64` the behaviour is undefined. |
| `FloatText.text_binary_refuted` | C97 fails in radix two: `32/33` prints as `1e101/100001`, where the exponent is inside the numerator; reading it back is an error. |
| `FloatText.integer_log_native_refuted` | C98 fails: `integer_log` of the greatest 64 bit integer to the base two never ends, however many rounds are allowed. |
| `Func.replaced_refuted` | The full statement of `names_partial` is false: a function that is set to another one, or emptied, by its own callable while it runs is used after it was destroyed. |
| `Func.deep_copy_refuted` | `deep_copy` is meant to give a function with a callable of its own: calling the copy does not change the original. False: the copy names the same callable. |
| `Func.equal_self_refuted` | A function need not be equal to itself or to its copies: not when its callable has no `==`. |
| `Func.pointer_refuted` | The documented promise is false: it ends only when the function's life ends (or another pointer is made), but it is undefined to call the pointer after the function was set to another callable. |
| `Func.new_thread_refuted` | The documented promise for other threads is false for the second call: it goes on with the function from which the last pointer had been made at the first call, even when another one has been made since. |
| `Gc.collect_circle_refuted` | The full statement is false, and not only for some heaps: whenever there is garbage in a circle that nothing outside points to, which is what collection is for, it ends in a use of a destroyed object or in a second destruction. |
| `Gc.collect_chain_refuted` | A chain of garbage is no better: the older object holds the younger, and the list is followed into what is gone. |
| `Gc.roots_dropped_refuted` | Once a root pointer that was made is destroyed, every later collection uses it. |
| `Gc.roots_copied_refuted` | An object that only a copy of a root pointer points to is collected. |
| `Gc.success_refuted` | The full statement is false: a type added twice is counted again after its garbage is gone. |
| `Interp.read_refuted` | C160 is false of the program: at the position of the last character, which is in the string, reading runs behind its end, for every string; and of characters from 2^31 on a value is not between its neighbours. |
| `Interp.write_refuted` | C161 is false of the program: assigning at a whole position changes the next character too; between two characters that are far apart, a character in the middle of them cannot be assigned; and at the last character it writes behind the end. |
| `Iter.minus_refuted` | For the smallest number `i-n` is undefined. |
| `Iter.bits_refuted` | A loop over a bit set never comes to its end. |
| `Iter.times_refuted` | A negative number of times is not no times: the counter of an `int` overflows, which is undefined, after the body was carried out 2147483648 times. |
| `Lib.failed_load_refuted` | C172 is false of the program: on Linux, when a library is not found, the end of the last handle closes null. |
| `Lib.exit_refuted` | C172 is false of the program: on Linux every program that has the object for "no library" closes null at its end. |
| `Lib.missing_symbol_refuted` | C173 is false of the program: asking for a symbol that does not exist is undefined; no null function is returned. |
| `Lib.unloaded_symbol_refuted` | C173 is false of the program: asked for a symbol, a library that was not loaded gives the function the program has under that name. |
| `Memfile.seek_offset_refuted` | C119 is false of the stream: `seek` from the beginning or the end does not look at the offset. |
| `Memfile.seek_beyond_refuted` | C119 is false of the stream: after the end but in the block, what is written leaves bytes before it that were never written, and a read at the end of the file reads outside. |
| `Memfile.tell_refuted` | C119 is false of the stream: a position is a pointer, so when the block grows and moves, `seek_to` to a position told before goes somewhere else, and reading there is outside. |
| `Memfile.close_refuted` | C119 is false of the stream: `close` leaves the position, so after it even reading nothing, or writing, goes outside, unless the position was the beginning. |
| `Mixed.mixed_refuted` | -1 as an `int` with 1 and 4294967295 as `unsigned`: equal to the one, greater than the other, and the greatest is neither. |
| `Mixed.order_refuted` | The greatest of three numbers depends on the order they are given in: -1 (`int`), 1 (`unsigned`), 3 (64 bits with a sign). |
| `Mixed.nan_refuted` | With NaN the result depends on the order of the arguments, `max` forgets a greater number behind a NaN, and the two forms of `min` differ. |
| `Names.lookup_nil_refuted` | C123 is false of the program: a symbol whose value is nil is not found. In the root, where `nil` is nil, the symbol `nil` does not exist and is void; around it another value can show through. |
| `Names.lookup_cycle_refuted` | C123 is false of the program: if a name space is around itself, looking up a symbol it does not declare never ends. |
| `Names.enter_unknown_refuted` | C124 is false of the program: leaving the root, and entering a name space that does not exist, lead to void. |
| `Names.assign_refuted` | C125 is false of the program: assigning to a symbol that is not declared does nothing, and one that is given nil is no longer declared. |
| `Native.div_big_refuted` | C155 is false of the program: 7 divided by −2 gives 3, −7 divided by −2 gives −3; the least `int` cannot be divided by any number; the least `signed char` divided by 1 gives 128. |
| `Native.div_ubig_refuted` | C155 is false of the program for the least number of a type. |
| `Native.frac_pow_int_refuted` | C156 is false of the program: 2 to the power −1 is 2. |
| `Native.ceil_div_refuted` | C157 is false of the program: −3 divided by 2 and rounded up gives 0, −4 divided by 2 gives 4294967294 for `int`. |
| `Native.sub_refuted` | C157 is false of the program: 3000000000u minus 5u gives −1294967301, and 2147483648u minus 5u is undefined. |
| `Node.eq_types_refuted` | The full statement is false: comparing a binary node of one type with one of another type takes the payload of one for the other. |
| `Node.eq_self_refuted` | A node whose payload does not equal itself, like a float that is not a number, is not `==` to itself. |
| `Node.equal_transitive_refuted` | The full statement is false: `t` equals two different nodes. |
| `Node.equal_self_refuted` | A function node whose function has no `==`, like a lambda, does not equal itself. |
| `Node.equal_hash_refuted` | Equal nodes can have different hashes. |
| `Node.lists_equal_refuted` | The full statement is false: two lists of the same two nodes are not equal. |
| `Node.pair_index_refuted` | The full statement is false: a pair just made, its parts 5 and 6; after an index of another kind both are void. |
| `Node.kept_holds_refuted` | The full statement is false: the node kept for 0 was replaced by a pair, and the pair is the answer for 0 now. |
| `Node.kept_undefined_refuted` | A payload that does not equal itself, like a float that is not a number, cannot be kept. |
| `Numeral.signed_min_refuted` | C55 is false of the program for the smallest value of a type as wide as `int` or wider: `abs` negates it in its own type first, which overflows. |
| `Numeral.comn_default_refuted` | C54 is false of a default-constructed `comn_numerical_representation_t`, whose fractional separator is the same character as its fractional sign: thirteen tenths is written `1.3` and read back as a third. |
| `Numeral.fractional_refuted` | C20 is false of the program when digits come before the block: a sixth, 0.1666…, is written `0.[1]`, which denotes a ninth. |
| `Numhash.negative_zero_hash_refuted` | C192 is false of zero too: the opposite of the fraction zero is the same number, and has another hash (`==` says they differ, C16). |
| `Numhash.frac_hash_refuted` | C192 is false for fractions: a half and two quarters compare equal, and have different hashes; so have zero and zero quarters, which `simplify` leaves as it is. |
| `Numhash.mixed_hash_refuted` | C192 is false between types: no native number but zero has the hash of the same number as a `ubigint` of one digit, though they compare equal. |
| `Numhash.float_hash_refuted` | C192 is false for native floating point numbers: minus one has no hash. |
| `Origin.file_refuted` | C170 is false of the program: after an allocation outside of every operation the empty name stays, and the next operation is noted with it. |
| `Origin.report_refuted` | C171 is false of the program: after the next operation has allocated something, the block of the first one is reported with the file of the second one, or its name is read from a buffer that is gone. |
| `Package.minor_refuted` | C174 is false of the program: of two minor versions the first one asked for stays, though the other one is newer. |
| `Package.nested_choice_refuted` | C176 is false of the program: a choice that fails inside another one ends everything, although another alternative is there. |
| `Package.unknown_package_refuted` | C176 is false of the program: a package nobody knows is not reported, the null pointer is used. |
| `Package.choice_refuted` | C177 is false of the program: of two packages the second is installed, the first is not; all lists are erased and the remainder of a division by zero is taken. |
| `Pool.pool_defined_refuted` | C43 fails as it stands: the first slot ever handed out can never be given back, whatever the block and slot sizes. |
| `Print.print_refuted` | C165 is false of the program: the decimal text of `10^420-1` in a release build, and of `10^102-1` in a debug build, denotes another number: the quotient of the first division is `2^32-1`, or `2^8-1`, too large. |
| `Print.print_trinary_refuted` | C165 is false of the program: the number `3^430-1` has no text in the representation of radix three (22 digits). |
| `Print.print_long_refuted` | C165 is false of the program: when the lower part of the text stands for a number of more than 32 digits, nothing is delivered: the remainder is scaled back by an undefined division. |
| `Print.read_refuted` | C166 is false of the program: a decimal text of 1648 characters in a release build, and one of 412 characters in a debug build, that is not read: the product of the two parts runs out of its buffer. |
| `Ptr.counted_defined_refuted` | C51 fails as it stands: a valid history can be undefined. |
| `Ptr.counted_sound_refuted` | C51 fails as it stands: an object can be ended twice. |
| `Pushback.pushback_refuted` | C50 fails as it stands: whenever more than 1024 elements come to be held back, that, or reading them again, is undefined. |
| `Random.between_wide_refuted` | C48 is false for wide ranges: for types of 32 bits and more, when the bounds are at least half of the range of the type apart, the first draw is already undefined (a signed overflow or a shift by the full width). |
| `Random.between_empty_refuted` | C48 is false for `exclusive` with equal bounds: it never returns. |
| `Random.between_big_refuted` | C48 is false for big integers when the difference has exactly a whole number of words (for example between 0 and 2^64-1 with words of 64 bits): the last word is drawn with a shift by its full width. |
| `Search.match_refuted` | C29 is false of the code. Looking for "a" in "bc": the skip goes behind the end of the range, and the comparison is made before the test of the length, so memory behind the range is read; when it holds the pattern, it is "found" there. The same happens when the range is shorter than the pattern. |
| `Search.match_empty_refuted` | An empty pattern makes the search read in front of the pattern. |
| `Search.reverse_match_refuted` | C30 is false of the code. "aab" is not found in "xaabz"; for "ab" in "ababxy" an earlier occurrence is returned instead of the last one; for "ab" in "abac", and for "a" in "ab", memory in front of the range is read. The default skip is one too long, the last element of the pattern has no entry, and of two equal elements the wrong one is entered. |
| `Search.finds_refuted` | C31 is false of the code. `find_last_of` with nothing to find has no return value; and for 64-bit types the number of values is computed as 0, so that values are compared by their lowest byte: 257 is "found" in {1}. |
| `Search.quick_unindex_refuted` | C57 is false of the code for 64-bit types: 256 is looked up as 0. |
| `Series.sqrt_exact_refuted` | With the precision 0 the guess is given back unimproved, also for a square number: the root of 4 may be 1. So "at most `ε` from the root" is false for `ε = 0`. |
| `Series.sin_within_refuted` | "The sine of every number is given to every positive precision" is false: with `ε = 4` the sine of 4 is given as 4. |
| `Series.exp_ends_refuted` | "The exponential and the logarithm are computed" is false: they do not end. |
| `Series.log_ends_refuted` |  |
| `Series.arctan_refuted` |  |
| `Series.arccos_refuted` | The arc cosine of 1 is 0; what is given is near `3π/4 - 1`, with any good value of π. |
| `Series.arcsin_refuted` | The arc sine of 1 is `π/2`; what is given is less than a third. |
| `Series.pi_any_history_refuted` | "After any history `π(ε)` is at most `ε` from π" is false: when the root is improved before the first turn of the series, `π(1/30)` is farther than a thirtieth from π. |
| `Series.reverse_sign_refuted` | "The sign of an integer is reversed" is false for the negative ones. |
| `Series.floor_const_refuted` | "`floor` at compile time is the greatest integer that is not above the number" is false: 3/2 gives 0, and -2 gives -3. |
| `Series.ceil_const_refuted` | "`ceil` at compile time is the least integer that is not below the number" is false: a number barely above 1 gives 1. |
| `Series.pi_rate_refuted` | C191 is false of the program, after every number of steps: the result of `k` steps is never right to the `14 k` digits the object counts, not even to `14 k - 8`. |
| `Series.pi_half_rate_refuted` | And there are always later steps where only half of the digits are right: the steps saved for the root were needed. |
| `Shift.least_refuted` | C193 is false of the least `int` or wider number: every shift by it is undefined, in either direction, though the magnitude is taken "to avoid overflow". |
| `Shift.big_count_refuted` | C193 is false of bigger counts: a number of at least two digits, shifted right by `w * 2^64 + w` bits, far more than it has, is left with all its digits but one, and shifting by `w * 2^64` is undefined. |
| `Special.nan_round_trip_refuted` | C162 is false of the program: in the digits of `valanlottish`, no NaN but the named ones can be read back. |
| `Special.nan_text_refuted` | C164 is false of the program, for `double` in decimal digits: "NaNny" is read as NaN without an error, and "NaN[0,0,0,0,0,0,240,63]" as 1; "NaN]", "NaN[1,2]" and "NaN[0,0,0,0,0,0,0,0,0]" are undefined. |
| `Sqrt.quick_invsqrt_small_refuted` | C188: the least positive `float` times the square of its quick inverse root is below a thousandth. |
| `Sqrt.invsqrt_ends_refuted` | C189: with the `ε` of the type the inverse root of 1/5 does not return in `float` and `double`, nor that of 1/31 in `float128_t`: the loop goes to and fro between two neighbours. |
| `Sqrt.quick_sqrt_zero_refuted` | C185: the quick square root of zero is not zero, nor near it on the scale of small numbers: it is above the root of every number below the least normal one. |
| `Sqrt.sqrt_zero_refuted` | C186: the square root of zero is not zero, in any of the types. |
| `Sqrt.sqrt_small_refuted` | C186: small numbers get roots that are far off in proportion: a thousand times the root for the least positive number of `float`, and one part in a thousand for a normal number near `2⁻⁴⁰`. |
| `Sqrt.sqrt_nearest_refuted` | C186: the result is not always the nearest number: here the one before it is nearer, the root being below the middle. |
| `Sqrt.int_root_refuted` | C187: near `2^64` the integer part of the root is too great by one. |
| `Stdwrap.read_refuted` | C201 is false of the program: a portion of a stream as it is made is right if and only if nothing was asked for or what is there does not begin with white space. |
| `Stdwrap.dead_refuted` | C201 is false of the program: a stream that had an error, such as a read beyond its end, can never be used again: whatever is done with it, every read gives nothing and every position is -1. |
| `Stdwrap.out_dead_refuted` | C202 is false of the program: after a write that did not fit, or a seek out of the text, nothing is ever written again, and no call says so: the writes have no result. |
| `Str.copy_part_refuted` | A range that starts inside inserted characters is copied from the start of the insertion: `"aXYZb".substr(2, 2)` is "YZ", but made flat it is "XY". |
| `Str.flatten_refuted` |  |
| `Str.equal_strings_equal_hash_refuted` | Two strings with the same characters and different hashes: `"aXYZb".substr(2, 2)` and "YZ". |
| `Str.print_refuted` | Printing "ab" + "cde" without the "d" writes "ab", then "cde", and then asks for the array at position 6 of a text of 5 characters, whose size is computed as -1: there is no result, however long the loop runs. |
| `StrCmp.equal_text_refuted` | An empty string is not equal to the empty text. |
| `StrCmp.equal_empty_runs_refuted` | Two empty runs, left by removing all characters of "aa" and "bb", are not equal. |
| `StrCmp.equal_erased_refuted` | "ab" + "cde" without the "d" is compared with "abce" by arrays: they are not found equal. |
| `StrCmp.order_substring_refuted` | Substrings "bc" of "abc" and of "abcd" are equal, but the first is ordered before the second. |
| `StrCmp.order_inserted_refuted` | "abcd" and "abce", both with "x" inserted at 1, are ordered as equal: only the first two characters after the insertion are compared. |
| `StrCmp.order_text_refuted` | Ordering with a zero-terminated text is neither the order by length nor the dictionary order: "b" comes after "ab", and "ab" comes after "b". |
| `StrEdit.insert_end_refuted` | An end node asked to insert before its own characters inserts in the wrong place: end_apply_string_data_t.hpp:142 takes the number of its own characters from the position. |
| `StrEdit.insert_overlap_refuted` | A buffer with room for the new characters moves the ones behind them with `memcpy` between overlapping ranges: end_apply_string_data_t.hpp:148, head_apply_string_data_t.hpp:131. |
| `StrEdit.remove_shared_refuted` | Removing past the first part of a shared concatenation changes the second part in place, so that the other owner of the concatenation changes too: sum_string_data_t.hpp:166, 180. |
| `StrEdit.remove_back_inserted_refuted` | Removing at the back of a string with an insertion takes the wrong characters: inserted_string_data_t.hpp:263-264. |
| `StrEdit.pop_front_head_refuted` | A head node above a head node exchanges its buffer before the popped characters are read from it: head_apply_string_data_t.hpp:263-265. |
| `StrEdit.pop_back_end_refuted` | The same at the back: end_apply_string_data_t.hpp:277-279. |
| `StrEdit.pop_back_sum_refuted` | A concatenation compares the number of characters with the size of the wrong part: sum_string_data_t.hpp:209. |
| `StrEdit.pop_back_head_refuted` | A head node asks its child for more characters than it has: head_apply_string_data_t.hpp:272. |
| `StrEdit.pop_back_inserted_refuted` | Popping at the back of an insertion at the end pops at its front: inserted_string_data_t.hpp:308. |
| `StrEdit.assign_run_refuted` | A shared run of one character is changed for all its owners, and a run of one character keeps the hash of the old character: same_value_compress_string_data_t.hpp:84. |
| `StrEdit.assign_long_run_refuted` | Assignment near the end of a run of more than 512 characters records a size below zero (same_value_compress_string_data_t.hpp:99): a character added afterwards is not found at the end. |
| `StrEdit.assign_inserted_refuted` | An insertion node hands its own pointer to its child; a child that takes its place frees it while it is in use: inserted_string_data_t.hpp:164-169. |
| `Stream.conv_get_refuted` | C104 is false: reading one character where there are more writes past the end of what the reader provided. |
| `Stream.conv_get_split_refuted` | C104 is false: a character that does not end with the four bytes read at a time ends the program. |
| `Stream.read_null_refuted` | C105 is false of the stream of nothing, which never says that it is at its end: reading a string from it does not come to an end. |
| `Stream.getline_blank_refuted` | C106 is false: empty lines, and blanks at the start of a line, are not read. |
| `Stream.getline_lost_refuted` | C106 is false: a line of one character after a carriage return is lost. |
| `Stream.echo_short_refuted` | C107 is false: a read that gets less than it asks for echoes what happens to be in the buffer of the reader. |
| `Stream.echo_split_refuted` | C107 is false: a line end of two characters that are read one by one is echoed as two. |
| `Symname.make_refuted` | C167 is false of the program: with gcc and clang, a name that the demangler does not know is freed although nobody allocated it. |
| `Symname.type_name_refuted` | C168 is false of the program: with gcc and clang the size counts the whole buffer, so no name is equal to the name of the type. |
| `Symname.function_name_refuted` | C169 is false of the program: on Linux it is undefined for a function the demangler does not know (every C function, `main`), for one without a symbol, and for one that is not known at all. |
| `Symname.jump_name_refuted` | C169 is false of the program: on Windows the target of a jump table may have up to 2000 characters, but 1024 and more do not fit; and a name that ends with the parenthesis wraps around. |
| `Table.map_equal_self_refuted` | C41 is false for `m == m`: with the keys 3 and 8 assigned, both in the same of the five buckets, it never returns. |
| `Table.table_order_refuted` | C40 is false in general: with one record more of the same key than a bucket may hold, the table grows, which reverses their order, and a search returns the oldest of them, not the latest. |
| `Term.device_refuted` | C195 is false of other devices on Windows: reading from `NUL` uses a variable without a value. |
| `Term.threads_refuted` | C195 is false of two threads: the one that begins second and ends second leaves every terminal in the mode for reading, for good, although both have ended. |
| `Term.crash_refuted` | C195 is false when the program ends during a read: the terminal keeps the mode for reading. |
| `Term.write_file_refuted` | C196 is false of files on Windows. |
| `Term.escapes_refuted` | C196 is false: the functions that make a console interpret escape sequences are called for every stream but those onto consoles, so a console that does not interpret them shows them. |
| `Text.equal_short_refuted` | "ab" == "abc" is true for compile-time texts, and the first string becomes "abc". |
| `Text.equal_char_refuted` | And `"abc" == "a"` for a single character compares memory behind it. |
| `Text.order_short_refuted` | "b" and "ac" are ordered one way as compile-time texts and the other way as nodes. |
| `Text.push_string_operand_refuted` | `a += b` changes `b`: a single character added to a string that grows at its front. |
| `Text.self_add_refuted` | `c + c` for a single character. |
| `Text.hash_refuted` | A single character and the same character in a node are equal and have different hashes. |
| `Text.find_from_refuted` | Searching "aba" for "a" from 1 on answers 1. |
| `Text.replace_char_refuted` | Replacing "a" in "aba" never ends. |
| `Text.ends_with_run_refuted` | "x" is said to end with one "a", "aa" not to. |
| `Text.write_through_refuted` | A cached hash is kept when a character is written through the pointer. |
| `Text.c_str_refuted` | The terminated text of a part of "aXYZb" is not that part, and neither is the view of such a part with a character added. |
| `Text.view_refuted` |  |
| `Text.split_refuted` | The first part of "a,b" is not "a", and the second is not "b". |
| `Text.assign_self_refuted` |  |
| `Text.of_iterators_refuted` |  |
| `Text.find_last_of_refuted` | C183 is false of the program. The last of {'b', 'c'} in "a" is no position and no `npos`; of "b" it is `npos`. |
| `Text.storage_refuted` | C63 is false of other trees: a compile-time text and a string made by adding a character, with the same characters, differ after the same insertion. |
| `Textio.read_bool_refuted` | C121 is false of the program: there are texts that are no `bool` and change it nevertheless: a byte that is too large, no digits, and no number. |
| `Textio.read_end_refuted` | C122 is false of the program: reading a signed number from a stream that is at its end reads the first character of an empty text; an unsigned one becomes 0 there. |
| `Textio.read_wrong_refuted` | C122 is false of the program: a number that is too large for its type, and a word that is no number, are read as some other number, and nothing tells. |
| `Throw.assign_leaves_nothing_refuted` | The full claim does not hold: a block with two elements is left behind. |
| `Throw.grow_unchanged_refuted` | The full claim does not hold: the second move throws, and the element moved first is gone. |
| `Throw.destroy_after_throw_refuted` | The full claim does not hold: the new element of a `push_back` throws, and the destructor destroys what was never made. |
| `Throw.throw_reaches_caller_refuted` | The full claim does not hold: the copies of `insert` throw through a `noexcept` function. |
| `Timer.timer_refuted` | C200 is false of the program: a timer that is paused and then stopped counts the pause; one that is reset while it is paused and then resumed shows less than it ran, even less than nothing. |
| `Trig.poles_refuted` | C208 is false of the program: whatever the precision, tangent and secant of half of the approximation of π are no numbers, though the cosine of that fraction is not zero. |
| `Ubig.eq_native_refuted` | C03 is false of the program: `ubigint(3)==5`. |
| `Ubig.cmp_native_refuted` | C03 is false of the program: `ubigint(5)<=>3ull` says less (one digit against two). |
| `Ubig.add_self_refuted` | C04 is false of `x+=x` when the number grows: the storage read from is released first. |
| `Ubig.add_native_refuted` | C05 is false of the program: `ubigint(1)+=(2^64-1)` loses the carry. |
| `Ubig.dec_refuted` | C07 is false of the program: `--` of `2^32` gives `2^33-2`. |
| `Ubig.mul_refuted` | C08 is false of the program: with 64-digit operands the carry of the last merge may be written past the end of the buffer. |
| `Ubig.mod_self_refuted` | C09: `x%=x` is undefined for every number of one to thirty-two digits, although `x%y` with an equal `y` is zero. |
| `Ubig.div_refuted` | C09 is false of the program: `5·2^96 / (5·2^96+1)` gives one, and `divmod` of these operands subtracts beyond zero. |
| `Ubig.divmod_refuted` |  |
| `Ubig.mod_one_digit_refuted` | C09: `%` by a one-digit number reads before the divisor's storage once the dividend has more than 32 digits. |
| `Ubig.long_remainder_refuted` | C09: the same happens inside `%` and `divmod` whenever the remainder has more than 32 digits: it is scaled back by a division by one digit. |
| `Ubig.shr_refuted` | C11 is false of the program: `x>>33` of a three-digit number writes outside the result. |
| `Uniform.exclusive_refuted` | C158 is false of the program: `between_0_and_1_exclusive` gives 1 for the greatest draw, of every type. |
| `Uniform.between_refuted` | C159 is false of the program, for `double`: the range of all numbers gives NaN or infinity only; `inclusive` between −2^54 and 3 can give 4; `exclusive` between 1 and 2 can give 2, for a fraction below 1. |
| `Utf.get_utf8_to_utf16_size_refuted` | C25, refutation: `get_utf8_to_utf16_size` never returns a size; on every input it either reports `npos` or runs off its end. |
| `Utf.utf16_surrogates_refuted` | C24/C25, limit: surrogate code points do not survive UTF-16, which is why the UTF-16 statements speak about scalar values. |
| `Utf.utf16_to_utf8_code_size_refuted` | The constant `utf16_to_utf8_code_size = 2` (S/char_set/convert.hpp:34) is not an upper bound of UTF-8 bytes per UTF-16 unit. |
| `Val.values_history_refuted` | The full statement is false: values 0 and 1 share; value 0 is redirected to value 2; when value 1 is redirected to value 3, value 0 does not follow. |
| `Val.read_harmless_refuted` | The full statement is false: two histories that differ in one more read leave value 0 different. |
| `Val.special_init_refuted` | The full statement is false: giving up one `special_init` value for another value changes all, also those made later. |
| `Val.code_list_answer_refuted` | The full statement is false: the answer of one code list changes when another code list is evaluated. |
| `Val.code_list_return_refuted` | A code list that returns at once answers with what the code list before it answered. |
| `Val.code_list_others_refuted` | Evaluating a code list changes what a `special_init` value made before it reads. |
| `Val.code_list_call_refuted` | Calling for the answer of an earlier code list gives what was evaluated just before instead. |
| `View.substr_end_refuted` | C109 is false: with a position and a pointer to the end, the part is too long by the position; in a string that takes all of its block it cannot be read. |
| `View.substr_beyond_refuted` | C109 is false: from a position behind the end, `substr` goes on for almost the whole address space. |
| `View.literal_in_range_refuted` | C111 is false of types of 64 bits, as C57: a character is found that is not there. |
| `Whole.ceil_refuted` | C190: in `double`, `ceil` of `2^-60` is zero at compile time. |
| `Whole.floor_refuted` | C190: at compile time the floor of 2.5 is 1 and that of -2 is -3. |
| `Wide.int_add_refuted` | C179 is false of the program: `+` of stored integers with different signs never returns. |
| `Wide.int_div_refuted` | C179 is false of the program: `-5·2^96 / (5·2^96+1)` is minus one. |
| `Wide.int_inc_refuted` | C179 is false of the program: `++` of `-2^32` gives `-2^33+2`. |
| `Wide.frac_delivers_refuted` | C180 is false of longer fractions: the product of two whole numbers of 64 digits is undefined (C08), so multiplying, dividing, comparing, adding and subtracting fractions made of them is. |
| `Wide.gcd_refuted` | C181 is false of the program: `gcd(0, 12)` is 3. |
| `Wide.gcd_long_refuted` | C181 is false of the program: `gcd` of a number of at least 256 digits and one that has two digits or more but at least 32 fewer divides more than 32 digits by one digit in its first round, which reads outside the storage. |
| `Wide.simplify_long_refuted` | C181 is false of the program: `simplify` of a fraction with more than 32 (and fewer than 256) digits in numerator or denominator reads outside its storage whenever the greatest common divisor fits in a digit, so for every such fraction already in lowest terms. |
| `Wide.trunc_refuted` | C182 is false of the program: `trunc` of `5·2^96/(5·2^96+1)` is one and `split` subtracts beyond zero. |

## 7. Axioms per theorem

As printed by `#print axioms` for every theorem of MANIFEST.json.

* none (32): `Alloc.size_null`, `Assign.own_assignment_refuted`, `Assign.way_characterised`, `Bigfloat.frac_assign_correct`, `Bigfloat.ufrac_assign_correct`, `Bigfloat.ufrac_div_assign_partial`, `Bigfloat.ufrac_hash_refuted`, `Bigint.negative_zero_refuted`, `Bigint.sub_assign_refuted`, `Compare.compare_refuted`, `Convert.frac_safe_refuted`, `File.seek_large_refuted`, `File.zero_handle_refuted`, `Fill.fill_undefined_refuted`, `Gc.success_refuted`, `Lib.exit_refuted`, `LogicalBool.constants_val`, `LogicalBool.eq_val`, `LogicalBool.laws`, `LogicalBool.not_val`, `LogicalBool.unknown_absorbing`, `Memfile.seek_offset_characterised`, `Native.sub_refuted`, `Numeral.signed_min_refuted`, `Numhash.float_hash_refuted`, `Origin.file_refuted`, `Search.quick_unindex_refuted`, `Series.reverse_sign_refuted`, `Sqrt.invsqrt_ends_refuted`, `Stack.move_empty_characterised`, `Symname.make_refuted`, `Wide.int_inc_refuted`.

* `propext` (97): `Arith.euclidean_gcd_signed_refuted`, `Arr.forward_insert_nothing_characterised`, `Bigint.add_assign_diverges`, `Bigint.add_refuted`, `Bigint.div_assign_correct`, `Bigint.div_correct`, `Bigint.div_mod_zero`, `Bigint.mul_assign_correct`, `Bigint.mul_correct`, `Bigint.neg_correct`, `Bigint.shift_correct`, `Bigint.sub_assign_partial`, `Bigint.sub_rvalue_refuted`, `Cast.other_nodes`, `Charat.get_characterised`, `Charat.index_other_refuted`, `Charat.outlive_refuted`, `Charat.set_characterised`, `Charat.shorter_refuted`, `Chars.ascii_partial`, `Codec.name_refuted`, `Compare.reverse_correct`, `Convert.big_to_refuted`, `Cow.handles_isolated_refuted`, `Eval.ideal_unique`, `File.close_refuted`, `File.get_error_refuted`, `File.read_error_refuted`, `File.read_large_refuted`, `File.seek_held_refuted`, `File.write_characterised`, `File.write_short_refuted`, `Func.deep_copy_refuted`, `Func.new_thread_refuted`, `Func.pointer_refuted`, `Func.replaced_refuted`, `Insert.insert_dead`, `Iter.inc_correct`, `Lib.exit_windows`, `LogicalBool.and_is_glb`, `LogicalBool.or_is_lub`, `LogicalBool.toBool_iff`, `Memfile.close_refuted`, `Memfile.seek_beyond_refuted`, `Memfile.seek_offset_refuted`, `Memfile.tell_refuted`, `Mixed.nan_refuted`, `Names.assign_refuted`, `Names.enter_leave_partial`, `Names.enter_unknown_refuted`, `Names.initial_symbols`, `Names.lookup_cycle_refuted`, `Names.lookup_ends_characterised`, `Names.lookup_nil_refuted`, `Names.lookup_shadows`, `Names.lost_characterised`, `Node.kept_holds_refuted`, `Node.list_keeps`, `Node.pair_index_refuted`, `Numeral.from_char_correct`, `Origin.report_refuted`, `Package.unknown_package_refuted`, `Series.reverse_sign_characterised`, `Sort.sorts_unique`, `Stream.getline_blank_refuted`, `Stream.getline_lost_refuted`, `Stream.read_null_refuted`, `Symname.function_name_characterised`, `Symname.function_name_refuted`, `Symname.make_characterised`, `Term.device_refuted`, `Term.write_characterised`, `Term.write_file_refuted`, `Term.write_partial`, `Text.assign_self_characterised`, `Text.ends_with_run_refuted`, `Text.find_last_of_refuted`, `Textio.read_bool_refuted`, `Textio.read_end_refuted`, `Textio.read_wrong_refuted`, `Throw.assign_leaves_nothing_refuted`, `Throw.destroy_after_throw_refuted`, `Throw.grow_unchanged_refuted`, `Throw.throw_reaches_caller_refuted`, `Ubig.divmod_refuted`, `Ubig.to_native`, `Val.code_list_answer_refuted`, `Val.code_list_call_refuted`, `Val.code_list_others_refuted`, `Val.code_list_return_refuted`, `Val.read_harmless_refuted`, `Val.special_init_refuted`, `Val.values_history_refuted`, `View.literal_finds`, `View.substr_end_refuted`, `Wide.int_div_refuted`, `Wide.trunc_refuted`.

* `Quot.sound`, `propext` (259): `Alloc.alloc_count_refuted`, `Alloc.alloc_nothing`, `Alloc.alloc_size_refuted`, `Alloc.realloc_align_refuted`, `Alloc.realloc_ends`, `Alloc.realloc_in_place_refuted`, `Arith.binary_gcd_refuted`, `Arith.binary_gcd_wide_refuted`, `Arith.binary_gcd_zero_characterised`, `Arith.euclidean_gcd_partial`, `Arith.euclidean_gcd_refuted`, `Arith.factorize_signed_characterised`, `Arith.integer_log_native_refuted`, `Arith.pow_correct`, `Arr.forward_insert_resize_refuted`, `Arr.insert_own_elements_refuted`, `Arr.part_used_insert_refuted`, `Assign.fill_renew_refuted`, `Bigfloat.frac_sub_self_refuted`, `Bigfloat.ufrac_simplify_refuted`, `Bigfloat.ufrac_simplify_zero_characterised`, `Bigint.div_mod_identity`, `Bigint.eq_partial`, `Bigint.hash_partial`, `Bigint.mod_assign_correct`, `Bigint.mod_correct`, `Bigint.of_int_correct`, `Bigint.sub_correct`, `Bits.all_bit_is_zero_refuted`, `Bits.bitset_eq_partial`, `Bits.bitset_eq_refuted`, `Bits.bitset_integer_round_trip`, `Bits.bitset_of_integer`, `Bits.bitset_shift_out_of_bounds`, `Bits.bitset_shift_partial`, `Bits.bitset_shift_refuted`, `Bits.bitset_shr_characterised`, `Bits.bitset_to_integer`, `Bits.counts_unique`, `Bits.rot_iterator_dec_inc`, `Bits.rotl_bits`, `Bits.rotl_rotr`, `Bits.rotr_bits`, `Bits.rotr_rotl`, `Cast.const_use_correct`, `Cast.maybe_use_correct`, `Cast.was_an_correct`, `Charat.get_char`, `Charat.history_char`, `Charat.negative_refuted`, `Charat.set_char`, `Charat.set_other_refuted`, `Chars.ascii_punct_characterised`, `Codec.c_locale_refuted`, `Codec.name_apart_partial`, `Codec.name_characterised`, `Codec.name_partial`, `Codec.utf8_all`, `Codec.written_apart`, `Codec.written_correct`, `Codec.written_died`, `Codec.written_pieces`, `Compare.by_length_unique`, `Compare.dictionary_unique`, `Compare.max_correct`, `Compare.max_min_list_correct`, `Compare.min_correct`, `Convert.ubig_safe_refuted`, `Count.clear_refuted`, `Count.counters_exact`, `Cow.handles_isolated_partial`, `Cow.reference_isolated_partial`, `Eval.code_list_keeps_jumps`, `Eval.done_stays_done`, `Eval.dotted_list_refuted`, `Eval.endless_characterised`, `Eval.errors_pass`, `Eval.eval_partial`, `Eval.expr_characterised`, `Eval.expr_head_refuted`, `Eval.jump_characterised`, `Eval.jump_out_refuted`, `Eval.parts_correct`, `Eval.return_characterised`, `Eval.return_refuted`, `Eval.self_evaluating`, `Eval.straight_list_partial`, `File.get_peek_partial`, `File.handles_partial`, `File.others_partial`, `File.read_error_characterised`, `File.read_partial`, `File.reads_partial`, `File.seek_posix`, `File.write_partial`, `Fill.construct_other`, `Fill.fill_number_characterised`, `Fill.fill_one`, `Fill.fill_partial`, `Float.read_range_refuted`, `Float.round_trip_refuted`, `FloatText.text_binary_refuted`, `FloatText.text_reads_back_refuted`, `Gc.roots_characterised`, `Gc.roots_partial`, `Gc.run_characterised`, `Gc.success_partial`, `Iter.bits_characterised`, `Iter.bits_index`, `Iter.bits_refuted`, `Iter.minus_characterised`, `Iter.minus_partial`, `Iter.plus_correct`, `Iter.steps_correct`, `Lib.failed_load_refuted`, `Lib.loader_characterised`, `Lib.missing_symbol_refuted`, `Lib.unloaded_symbol_refuted`, `Links.list_shows_live`, `Links.sweep_shows`, `Memfile.close_characterised`, `Memfile.read_beyond_characterised`, `Memfile.write_beyond_characterised`, `Mixed.nan_max_characterised`, `Mixed.nan_min_characterised`, `Names.assign_partial`, `Names.assign_undeclared_characterised`, `Names.enter_outside_characterised`, `Names.lookup_innermost`, `Native.div_big_refuted`, `Native.div_ubig_refuted`, `Native.divmod_correct`, `Native.ufrac_pow_finite`, `Node.eq_self_refuted`, `Node.eq_symmetric`, `Node.equal_symmetric`, `Node.kept_again`, `Node.kept_holds_partial`, `Node.kept_undefined_refuted`, `Node.list_items`, `Numeral.builtin_brackets`, `Numeral.denominator_complement_correct`, `Numeral.expansion_text_determines`, `Numeral.fractional_zero`, `Numeral.from_string_error_iff`, `Numeral.native_round_trip`, `Numeral.signed_characterised`, `Numeral.signed_plus`, `Numeral.signed_round_trip_partial`, `Numhash.frac_hash_refuted`, `Origin.file_partial`, `Origin.lines_correct`, `Origin.report_operation_partial`, `Origin.report_quiet_partial`, `Package.candidates_characterised`, `Package.choice_first`, `Package.choice_refuted`, `Package.list_good`, `Package.list_order`, `Package.minor_refuted`, `Package.needs_met_partial`, `Package.needs_met_same_minor_partial`, `Package.nested_choice_refuted`, `Package.no_package_partial`, `Package.not_found_sound`, `Package.plain_characterised`, `Pool.alloc_available`, `Print.print_deterministic`, `Ptr.assign_target`, `Ptr.counted_no_leak`, `Pushback.read_prefix`, `Random.gen_in_range`, `Search.base_finds_correct`, `Search.finds_characterised`, `Search.in_range_correct`, `Search.match_empty_refuted`, `Search.match_finds_first`, `Search.reverse_match_blocks_partial`, `Search.reverse_match_refuted`, `Search.reverse_match_sound`, `Shift.least_refuted`, `Special.builtin_good`, `Stdwrap.dead_refuted`, `Stdwrap.file_partial`, `Stdwrap.out_dead_refuted`, `Stdwrap.read_characterised`, `Stdwrap.read_refuted`, `Stdwrap.tell_characterised`, `Str.length_correct`, `Str.print_refuted`, `StrEdit.assign_long_run_refuted`, `StrEdit.assign_run_refuted`, `StrEdit.insert_end_refuted`, `StrEdit.insert_overlap_refuted`, `StrEdit.insert_string_correct`, `StrEdit.pop_back_head_refuted`, `StrEdit.pop_back_inserted_refuted`, `StrEdit.pop_back_sum_refuted`, `StrEdit.pre_alloc_correct`, `StrEdit.remove_shared_refuted`, `Stream.conv_get_refuted`, `Stream.conv_get_split_refuted`, `Stream.conv_read_single_partial`, `Stream.echo_short_refuted`, `Stream.echo_split_refuted`, `Symname.function_name_partial`, `Symname.jump_bare`, `Symname.names_alone`, `Symname.plain_name`, `Symname.type_name_characterised`, `Symname.type_name_partial`, `Symname.type_name_refuted`, `Table.map_equal_self_refuted`, `Term.crash_partial`, `Term.crash_refuted`, `Term.escapes_refuted`, `Term.mode_characterised`, `Term.nested_partial`, `Term.one_by_one`, `Term.read_restores`, `Term.threads_refuted`, `Text.assign_self_refuted`, `Text.of_iterators_refuted`, `Text.of_run_correct`, `Text.push_string_operand_refuted`, `Text.push_string_shares`, `Text.self_add_refuted`, `Text.split_refuted`, `Textio.builtin_no_space`, `Textio.common_clear`, `Textio.read_bool_characterised`, `Throw.destroy_defined_iff`, `Timer.timer_refuted`, `Ubig.add_native_refuted`, `Ubig.add_self_refuted`, `Ubig.cmp_native_refuted`, `Ubig.dec_refuted`, `Ubig.digit_shifts_correct`, `Ubig.div_by_zero`, `Ubig.div_refuted`, `Ubig.eq_native_refuted`, `Ubig.inc_correct`, `Ubig.mul_refuted`, `Ubig.shr_refuted`, `Uniform.between_refuted`, `Uniform.between_swap`, `Uniform.between_wide`, `Uniform.inclusive_returns`, `Utf.encode_utf16_refuses`, `Utf.get_utf8_to_utf16_size_refuted`, `Utf.utf16_surrogates_refuted`, `View.literal_in_range_refuted`, `View.starts_with_char`, `View.substr_beyond_refuted`, `View.view_backward`, `View.view_elements`, `View.view_forward`, `Wide.gcd_refuted`, `Wide.int_neg_correct`.

* `Classical.choice`, `Quot.sound`, `propext` (797): `Alloc.aligned_partial`, `Alloc.alloc_characterised`, `Alloc.alloc_partial`, `Alloc.arrays_apart`, `Alloc.copy_alloc_partial`, `Alloc.counts_bounded`, `Alloc.counts_correct`, `Alloc.free_correct`, `Alloc.no_leaks`, `Alloc.realloc_failed`, `Alloc.realloc_partial`, `Alloc.size_characterised`, `Alloc.size_partial`, `Alloc.size_refuted`, `Arith.binary_gcd_partial`, `Arith.binary_gcd_processor_correct`, `Arith.binary_gcd_small_correct`, `Arith.ceil_div_correct`, `Arith.factor_table_characterised`, `Arith.factor_table_partial`, `Arith.factor_table_refuted`, `Arith.factorial_native_partial`, `Arith.factorial_partial`, `Arith.factorial_refuted`, `Arith.factorize_characterised`, `Arith.factorize_refuted`, `Arith.factorize_signed_sound_partial`, `Arith.factorize_smooth_partial`, `Arith.factorize_sound_partial`, `Arith.factorize_unique_characterised`, `Arith.factorize_unique_signed_sound_partial`, `Arith.factorize_unique_smooth_partial`, `Arith.factorize_unique_sound_partial`, `Arith.factorize_zero_refuted`, `Arith.gcd_big_partial`, `Arith.gcd_big_short`, `Arith.integer_log_correct`, `Arith.integer_log_native_partial`, `Arith.integer_log_two_characterised`, `Arith.is_prime_correct`, `Arith.lehmer_gcd_correct`, `Arith.lehmer_gcd_sound`, `Arith.pow_signed_correct`, `Arith.prime_above_ends`, `Arith.prime_above_partial`, `Arith.prime_at_least_characterised`, `Arith.prime_at_least_ge`, `Arith.prime_at_least_partial`, `Arith.prime_at_least_refuted`, `Arith.prime_at_most_characterised`, `Arith.prime_at_most_partial`, `Arith.prime_at_most_refuted`, `Arith.rising_one`, `Arith.root_exists`, `Arith.unique_factor_table_partial`, `Arith.visits_small`, `Arr.array_blocks`, `Arr.array_for_each`, `Arr.array_history`, `Arr.array_no_leak`, `Arr.array_self_source_characterised`, `Arr.part_used_forward_insert`, `Arr.part_used_forward_insert_objects_refuted`, `Arr.part_used_insert`, `Arr.part_used_insert_characterised`, `Arr.part_used_insert_whole`, `Arr.push_own_element_refuted`, `Arr.remove_characterised`, `Arr.remove_only_refuted`, `Arr.remove_refuted`, `Assign.copy_apart`, `Assign.copy_downwards_characterised`, `Assign.copy_overlap_refuted`, `Assign.copy_upwards_partial`, `Assign.fill_correct`, `Assign.move_ranges`, `Asval.round_trip_characterised`, `Asval.round_trip_partial`, `Asval.round_trip_refuted`, `Asval.same_payload`, `Asval.value_kept`, `Bigfloat.frac_add_assign_unsigned_refuted`, `Bigfloat.frac_add_correct`, `Bigfloat.frac_assign_unsigned_partial`, `Bigfloat.frac_cmp_partial`, `Bigfloat.frac_div_correct`, `Bigfloat.frac_eq_partial`, `Bigfloat.frac_mul_correct`, `Bigfloat.frac_neg_correct`, `Bigfloat.frac_negative_zero_characterised`, `Bigfloat.frac_of_correct`, `Bigfloat.frac_order_characterised`, `Bigfloat.frac_simplify_reciprocal_correct`, `Bigfloat.frac_split_correct`, `Bigfloat.frac_sub_correct`, `Bigfloat.frac_sub_self_value`, `Bigfloat.ufrac_add_correct`, `Bigfloat.ufrac_cmp_correct`, `Bigfloat.ufrac_cmp_int_correct`, `Bigfloat.ufrac_div_assign_refuted`, `Bigfloat.ufrac_div_assign_self`, `Bigfloat.ufrac_div_correct`, `Bigfloat.ufrac_eq_correct`, `Bigfloat.ufrac_int_assign_correct`, `Bigfloat.ufrac_int_forms_correct`, `Bigfloat.ufrac_mul_correct`, `Bigfloat.ufrac_reciprocal_correct`, `Bigfloat.ufrac_simplify_characterised`, `Bigfloat.ufrac_simplify_correct`, `Bigfloat.ufrac_split_correct`, `Bigfloat.ufrac_sub_correct`, `Bigfloat.ufrac_trunc_correct`, `Bigint.add_assign_partial`, `Bigint.add_assign_refuted`, `Bigint.add_partial`, `Bigint.cmp_partial`, `Bigint.inc_dec_correct`, `Bigint.negative_zero_characterised`, `Bigint.normal_preserved`, `Bigint.order_characterised`, `Bigint.sub_assign_characterised`, `Bits.all_bit_is_one_correct`, `Bits.bitset_bitwise`, `Bits.bitset_compound_get`, `Bits.bitset_set_get`, `Bits.bitset_shl_characterised`, `Bits.countl_one_correct`, `Bits.countl_zero_correct`, `Bits.countr_one_correct`, `Bits.countr_zero_correct`, `Bits.get_bitnum_correct`, `Bits.rot_iterator_advance`, `Bittext.text_bits_characterised`, `Bittext.text_bits_partial`, `Bittext.text_denotes`, `Bittext.text_not_refuted`, `Bittext.text_of_number`, `Chars.ascii_punct_refuted`, `Chars.ascii_space_characterised`, `Chars.ascii_space_refuted`, `Chars.blank_exact`, `Chars.class_beyond`, `Chars.class_by_category`, `Chars.class_reads_inside`, `Chars.class_relations`, `Chars.class_relations_space`, `Chars.cntrl_exact`, `Chars.cntrl_print_characterised`, `Chars.cntrl_print_refuted`, `Chars.digit_exact`, `Chars.graph_print_characterised`, `Chars.graph_print_refuted`, `Chars.iso_control_exact`, `Chars.nonchar_undefined`, `Chars.print_iff`, `Chars.space_exact`, `Chars.surrogate_class`, `Chars.xdigit_alnum`, `Chars.xdigit_exact`, `Codec.bytes_characterised`, `Codec.c_string_correct`, `Codec.cut_refuted`, `Codec.round_trip_characterised`, `Codec.round_trip_partial`, `Codec.round_trip_refuted`, `Codec.zero_refuted`, `Compare.compare_part_correct`, `Compare.compare_sized_correct`, `Compare.compare_sized_zero_correct`, `Compare.compare_zero_sized_characterised`, `Compare.compare_zeros_partial`, `Compare.dictionary_is_list_lt`, `Compare.equal_correct`, `Convert.big_safe_characterised`, `Convert.big_safe_keeps`, `Convert.big_safe_partial`, `Convert.big_safe_refuted`, `Convert.big_to_characterised`, `Convert.big_to_partial`, `Convert.frac_safe_characterised`, `Convert.frac_safe_partial`, `Convert.frac_to_characterised`, `Convert.ubig_safe_characterised`, `Convert.ubig_safe_keeps`, `Convert.ubig_safe_partial`, `Convert.ubig_to_correct`, `Convert.ufrac_safe_correct`, `Convert.ufrac_safe_keeps`, `Convert.ufrac_to_correct`, `Count.counters_characterised`, `Count.counters_partial`, `Count.leak_free`, `Die.die_shows`, `Die.die_shows_refuted`, `Die.empty_message`, `Die.linux_characterised`, `Die.linux_part_refuted`, `Die.linux_partial`, `Die.linux_refuted`, `Die.locale_bad`, `Die.locale_characterised`, `Die.no_message`, `Die.windows_characterised`, `Die.windows_long_refuted`, `Die.windows_partial`, `File.seek_held_characterised`, `File.told_partial`, `File.write_read_back`, `Fill.copy_characterised`, `Fill.fill_characterised`, `Fill.fill_float_characterised`, `Fill.fill_refuted`, `Fill.float_cut_characterised`, `Float.decompose16_characterised`, `Float.decompose_partial`, `Float.decompose_refuted`, `Float.make_float_exact_partial`, `Float.make_float_overflow_refuted`, `Float.make_float_partial`, `Float.make_float_small_refuted`, `Float.make_float_underflow_refuted`, `Float.make_float_zero_characterised`, `Float.make_get_correct`, `Float.read_exact_partial`, `Float.read_nearest_refuted`, `Float.read_neighbour_partial`, `Float.round_trip_partial`, `Float.to_big_correct`, `Float.to_fraction_characterised`, `Float.to_fraction_defined_partial`, `Float.to_fraction_exact_partial`, `Float.to_fraction_exact_refuted`, `Float.to_fraction_tiny_refuted`, `Float.to_native_exact_partial`, `Float.to_native_nearest_refuted`, `Float.to_native_neighbour_partial`, `Float.to_native_ones_refuted`, `Float.to_native_overflow_refuted`, `Float.to_native_underflow_refuted`, `Float.to_native_zero_characterised`, `FloatText.integer_log_correct`, `FloatText.integer_log_native_partial`, `FloatText.integer_log_native_refuted`, `FloatText.text_characterised`, `FloatText.text_close_partial`, `FloatText.text_ends`, `FloatText.text_integer_partial`, `FloatText.text_odd_partial`, `FloatText.text_reads_back_partial`, `FloatText.text_sixth_refuted`, `FloatText.text_size_refuted`, `FloatText.text_tiny_refuted`, `Func.call_shared`, `Func.deep_copy_characterised`, `Func.destroyed_once`, `Func.equal_characterised`, `Func.equal_self_refuted`, `Func.moved_characterised`, `Func.names_partial`, `Func.new_thread_partial`, `Func.own_pointer`, `Func.pointer_characterised`, `Func.pointer_partial`, `Func.undefined_characterised`, `Gc.collect_chain_refuted`, `Gc.collect_circle_refuted`, `Gc.collect_exact`, `Gc.collect_partial`, `Gc.roots_copied_refuted`, `Gc.roots_dropped_refuted`, `Hash.hashArray_closed_form`, `Hash.merge_hash_append`, `Hash.merge_hash_split_independent`, `Hash.repeat_times_eq_hash_replicate`, `Hash.repeat_times_period`, `Hash.with_calculated_before_append`, `Insert.insert_correct`, `Insert.insert_pieces`, `Interp.read_characterised`, `Interp.read_exact`, `Interp.read_partial`, `Interp.read_refuted`, `Interp.write_defined_characterised`, `Interp.write_partial`, `Interp.write_refuted`, `Interp.write_whole`, `Iter.backward_correct`, `Iter.element_correct`, `Iter.forward_correct`, `Iter.minus_refuted`, `Iter.times_characterised`, `Iter.times_nested`, `Iter.times_partial`, `Iter.times_refuted`, `Lib.all_closed_partial`, `Lib.held_loaded_partial`, `Lib.linux_characterised`, `Lib.symbol_partial`, `Literal.float_literal_hex_exponent`, `Literal.float_literal_octal_exponent`, `Literal.literal_accepted_digits`, `Literal.literal_digits_correct`, `Literal.ubigfloat_literal_correct`, `Literal.ubigint_literal_correct`, `Memfile.memory_file`, `Memfile.tell_characterised`, `Mixed.compare_characterised`, `Mixed.equal_characterised`, `Mixed.max_characterised`, `Mixed.max_min_comm`, `Mixed.max_min_partial`, `Mixed.min_characterised`, `Mixed.mixed_refuted`, `Mixed.nan_list_characterised`, `Mixed.nan_partial`, `Mixed.order_refuted`, `Native.ceil_div_characterised`, `Native.ceil_div_partial`, `Native.ceil_div_refuted`, `Native.div_big_characterised`, `Native.div_big_partial`, `Native.div_big_unsigned`, `Native.div_ubig_partial`, `Native.frac_pow_correct`, `Native.frac_pow_int_characterised`, `Native.frac_pow_int_partial`, `Native.frac_pow_int_refuted`, `Native.int_pow_correct`, `Native.is_odd_correct`, `Native.mod_big_partial`, `Native.nat_pow_correct`, `Native.sub_characterised`, `Native.sub_partial`, `Native.ufrac_pow_correct`, `Node.eq_characterised`, `Node.eq_equivalence`, `Node.eq_hash`, `Node.eq_types_refuted`, `Node.equal_characterised`, `Node.equal_equivalence_partial`, `Node.equal_hash_refuted`, `Node.equal_self_refuted`, `Node.equal_transitive_refuted`, `Node.lists_equal_characterised`, `Node.lists_equal_refuted`, `Node.pair_index_characterised`, `Node.pair_index_partial`, `Numeral.big_from_string_correct`, `Numeral.big_from_string_error_iff`, `Numeral.big_round_trip`, `Numeral.big_to_string_correct`, `Numeral.builtin_usable`, `Numeral.comn_default_refuted`, `Numeral.denominator_complement_complete`, `Numeral.fraction_from_string_correct`, `Numeral.fraction_round_trip`, `Numeral.fraction_to_string_correct`, `Numeral.fractional_characterised`, `Numeral.fractional_digits_correct`, `Numeral.fractional_partial`, `Numeral.fractional_refuted`, `Numeral.good_continuous`, `Numeral.good_table`, `Numeral.numeral_determined`, `Numeral.signed_fraction_round_trip`, `Numhash.big_hash_of_value`, `Numhash.float_hash_characterised`, `Numhash.float_hash_of_value`, `Numhash.frac_hash_partial`, `Numhash.mixed_bucket_characterised`, `Numhash.mixed_hash_refuted`, `Numhash.negative_zero_hash_refuted`, `Numhash.opposite_hash_characterised`, `Numhash.simplified_hash`, `Numhash.small_frac_hash_characterised`, `Numhash.ubig_hash_of_value`, `Package.choice_best_partial`, `Package.choice_partial`, `Package.choice_undefined_characterised`, `Pool.free_available`, `Pool.free_defined_characterised`, `Pool.pool_defined_partial`, `Pool.pool_defined_refuted`, `Pool.pool_sound`, `Pool.shrink_keeps`, `Print.print_builtin`, `Print.print_long_refuted`, `Print.print_never_less_partial`, `Print.print_read_round_trip`, `Print.print_refuted`, `Print.print_small_partial`, `Print.print_trinary_refuted`, `Print.print_twelve`, `Print.read_delivered`, `Print.read_depth_irrelevant`, `Print.read_partial`, `Print.read_refuted`, `Ptr.copy_target`, `Ptr.counted_defined_partial`, `Ptr.counted_defined_refuted`, `Ptr.counted_sound_partial`, `Ptr.counted_sound_refuted`, `Pushback.pushback_partial`, `Pushback.pushback_refuted`, `Random.between_big_in_range`, `Random.between_big_onto_partial`, `Random.between_big_refuted`, `Random.between_empty_refuted`, `Random.between_in_range`, `Random.between_onto_partial`, `Random.between_returns_partial`, `Random.between_uniform`, `Random.between_wide_refuted`, `Random.draws_full_period`, `Random.gen_bool`, `Random.generator_full_period`, `Random.multiplier_value`, `Random.sow_full_period`, `Search.find_last_of_characterised`, `Search.find_last_of_partial`, `Search.finds_partial`, `Search.finds_refuted`, `Search.match_padded`, `Search.match_partial`, `Search.match_refuted`, `Search.quick_unindex_characterised`, `Search.quick_unindex_partial`, `Search.reverse_match_single_characterised`, `Search.reverse_match_suffix_partial`, `Series.arccos_characterised`, `Series.arccos_refuted`, `Series.arcsec_characterised`, `Series.arcsin_characterised`, `Series.arcsin_refuted`, `Series.arctan_above_characterised`, `Series.arctan_below_characterised`, `Series.arctan_one_value`, `Series.arctan_refuted`, `Series.arctan_unit_characterised`, `Series.arctan_wrong_everywhere`, `Series.arctan_zero_partial`, `Series.ceil_const_characterised`, `Series.ceil_const_refuted`, `Series.chudnovsky_exists`, `Series.chudnovsky_unique`, `Series.cos_within_partial`, `Series.exp_characterised`, `Series.exp_ends_refuted`, `Series.floor_const_characterised`, `Series.floor_const_refuted`, `Series.log_characterised`, `Series.log_ends_refuted`, `Series.pi_any_history_refuted`, `Series.pi_counts`, `Series.pi_half_rate_refuted`, `Series.pi_is_pi_partial`, `Series.pi_plain`, `Series.pi_plain_history_partial`, `Series.pi_rate_partial`, `Series.pi_rate_refuted`, `Series.pi_within`, `Series.reverse_sign_fraction`, `Series.series_rate`, `Series.sin_coarse_partial`, `Series.sin_ends`, `Series.sin_within_partial`, `Series.sin_within_refuted`, `Series.sqrt_exact_refuted`, `Series.sqrt_within`, `Series.trunc_const`, `Shift.assign_partial`, `Shift.big_count_characterised`, `Shift.big_count_partial`, `Shift.big_count_refuted`, `Shift.by_int_partial`, `Shift.int_assign_partial`, `Shift.int_shift_partial`, `Shift.shift_partial`, `Sort.heapsort_sorts`, `Sort.insertion_sort_sorts`, `Sort.insertion_sort_stable`, `Sort.introsort_sorts`, `Sort.quicksort_sorts`, `Sort.sorts_read_only_range`, `Special.inf_round_trip`, `Special.is_inf_correct`, `Special.is_nan_correct`, `Special.nan_characterised`, `Special.nan_fields`, `Special.nan_round_trip_partial`, `Special.nan_round_trip_refuted`, `Special.nan_text_bad`, `Special.nan_text_bare`, `Special.nan_text_numbers`, `Special.nan_text_refuted`, `Sqrt.int_root_bounds`, `Sqrt.int_root_exact_partial`, `Sqrt.int_root_refuted`, `Sqrt.invsqrt_close_partial`, `Sqrt.invsqrt_ends_partial`, `Sqrt.invsqrt_large_partial`, `Sqrt.is_prime_native`, `Sqrt.native_root_suffices`, `Sqrt.quick_invsqrt_close_partial`, `Sqrt.quick_invsqrt_small_refuted`, `Sqrt.quick_sqrt_close_partial`, `Sqrt.quick_sqrt_zero_refuted`, `Sqrt.sqrt_close`, `Sqrt.sqrt_const_close`, `Sqrt.sqrt_exact_partial`, `Sqrt.sqrt_nearest_refuted`, `Sqrt.sqrt_neighbours_partial`, `Sqrt.sqrt_returns`, `Sqrt.sqrt_small_refuted`, `Sqrt.sqrt_zero_refuted`, `Stack.stacks_are_lists`, `Stack.stacks_memory`, `Stdwrap.out_file_partial`, `Stdwrap.reads_ink`, `Stdwrap.reads_partial`, `Stdwrap.write_characterised`, `Str.continued_hash_partial`, `Str.copy_part_clear_partial`, `Str.copy_part_correct_partial`, `Str.copy_part_refuted`, `Str.copy_prefix_correct_partial`, `Str.equal_strings_equal_hash_partial`, `Str.equal_strings_equal_hash_refuted`, `Str.flatten_clear_partial`, `Str.flatten_correct_partial`, `Str.flatten_refuted`, `Str.hash_clear_partial`, `Str.hash_correct_partial`, `Str.index_correct`, `Str.print_correct_partial`, `Str.substring_correct`, `StrCmp.equal_correct_partial`, `StrCmp.equal_empty_runs_refuted`, `StrCmp.equal_erased_refuted`, `StrCmp.equal_plain_correct_partial`, `StrCmp.equal_text_correct_partial`, `StrCmp.equal_text_refuted`, `StrCmp.equal_view_correct_partial`, `StrCmp.order_correct_partial`, `StrCmp.order_inserted_refuted`, `StrCmp.order_substring_refuted`, `StrCmp.order_text_equal_correct_partial`, `StrCmp.order_text_refuted`, `StrCmp.order_view_correct_partial`, `StrEdit.assign_inserted_refuted`, `StrEdit.assign_partial`, `StrEdit.edit_result_partial`, `StrEdit.erase_correct`, `StrEdit.history_partial`, `StrEdit.insert_correct_partial`, `StrEdit.insert_shared_correct`, `StrEdit.pop_back_end_refuted`, `StrEdit.pop_back_partial`, `StrEdit.pop_front_head_refuted`, `StrEdit.pop_front_partial`, `StrEdit.pop_shared_correct`, `StrEdit.push_back_correct`, `StrEdit.push_back_string_correct`, `StrEdit.push_front_correct`, `StrEdit.push_front_string_correct`, `StrEdit.remove_back_inserted_refuted`, `StrEdit.remove_back_owned_partial`, `StrEdit.remove_back_partial`, `StrEdit.remove_front_characterised`, `StrEdit.remove_front_owned_partial`, `Stream.conv_get_characterised`, `Stream.conv_read_partial`, `Stream.conv_read_sound`, `Stream.conv_write`, `Stream.conv_write_lossless`, `Stream.echo_newlines`, `Stream.echo_once_partial`, `Stream.echo_read_partial`, `Stream.echo_short_characterised`, `Stream.getline_characterised`, `Stream.getline_lines_partial`, `Stream.getline_step_partial`, `Stream.read_open_characterised`, `Stream.read_word_rest`, `Stream.read_words`, `Symname.jump_name_characterised`, `Symname.jump_name_partial`, `Symname.jump_name_refuted`, `Symname.names_are_values`, `Table.map_correct`, `Table.map_equal_correct`, `Table.map_equal_self_characterised`, `Table.table_characterised`, `Table.table_distinct_partial`, `Table.table_membership_correct`, `Table.table_order_refuted`, `Table.table_recent_partial`, `Text.c_str_characterised`, `Text.c_str_refuted`, `Text.data_partial`, `Text.edit_partial`, `Text.edit_short_correct`, `Text.ends_with_run_characterised`, `Text.ends_with_run_partial`, `Text.equal_char_refuted`, `Text.equal_partial`, `Text.equal_short_characterised`, `Text.equal_short_refuted`, `Text.equal_terminated_partial`, `Text.find_from_characterised`, `Text.find_from_refuted`, `Text.find_last_of_characterised`, `Text.find_of_partial`, `Text.find_partial`, `Text.find_string_partial`, `Text.find_view_characterised`, `Text.hash_agrees_partial`, `Text.hash_characterised`, `Text.hash_refuted`, `Text.insert_text_partial`, `Text.of_iterators_characterised`, `Text.order_partial`, `Text.order_short_refuted`, `Text.order_terminated_short_correct`, `Text.pad_correct`, `Text.plus_correct`, `Text.pointers_plain_correct`, `Text.push_run_correct`, `Text.push_string_characterised`, `Text.push_string_operand_partial`, `Text.push_view_correct`, `Text.read_correct`, `Text.replace_char_characterised`, `Text.replace_char_partial`, `Text.replace_char_refuted`, `Text.replace_range_correct`, `Text.replace_string_partial`, `Text.resize_correct`, `Text.resize_with_correct`, `Text.self_add_characterised`, `Text.split_characterised`, `Text.starts_ends_string_partial`, `Text.starts_ends_view_partial`, `Text.storage_refuted`, `Text.substring_correct`, `Text.view_refuted`, `Text.write_through_partial`, `Text.write_through_refuted`, `Textio.read_back`, `Textio.read_end_characterised`, `Textio.read_unsigned_partial`, `Throw.assign_thrown_characterised`, `Throw.completes`, `Throw.destroy_after_throw_characterised`, `Throw.grow_nothrow_move`, `Throw.grow_unchanged_characterised`, `Throw.never_undefined`, `Throw.outcome`, `Throw.throw_reaches_caller_characterised`, `Timer.timer_characterised`, `Timer.timer_partial`, `Timer.timer_running`, `Trig.converge`, `Trig.cot_partial`, `Trig.csc_partial`, `Trig.pole_at_zero`, `Trig.poles_refuted`, `Trig.sec_partial`, `Trig.tan_partial`, `Ubig.add_assign_correct`, `Ubig.add_correct`, `Ubig.add_native_characterised`, `Ubig.add_native_narrow`, `Ubig.add_native_partial`, `Ubig.add_self_characterised`, `Ubig.add_self_partial`, `Ubig.bit_at_correct`, `Ubig.cmp_correct`, `Ubig.cmp_native_characterised`, `Ubig.cmp_native_partial`, `Ubig.countr_zero_correct`, `Ubig.dec_borrow`, `Ubig.dec_characterised`, `Ubig.dec_partial`, `Ubig.div_characterised`, `Ubig.div_exact_correct`, `Ubig.div_partial`, `Ubig.div_small_partial`, `Ubig.divmod_characterised`, `Ubig.divmod_depth_irrelevant`, `Ubig.divmod_partial`, `Ubig.divmod_small_delivers`, `Ubig.eq_iff`, `Ubig.eq_native_characterised`, `Ubig.eq_native_partial`, `Ubig.from_native_stores`, `Ubig.get_bitnum_correct`, `Ubig.is_odd_correct`, `Ubig.long_remainder_refuted`, `Ubig.mod_one_digit_refuted`, `Ubig.mod_partial`, `Ubig.mod_self_partial`, `Ubig.mod_self_refuted`, `Ubig.mod_small_correct`, `Ubig.mul_characterised`, `Ubig.mul_depth_irrelevant`, `Ubig.mul_mid_characterised`, `Ubig.mul_mid_correct`, `Ubig.mul_partial`, `Ubig.mul_schoolbook_correct`, `Ubig.mul_small_correct`, `Ubig.native_round_trip`, `Ubig.schoolbook_division_correct`, `Ubig.shl_correct`, `Ubig.shr_assign_correct`, `Ubig.shr_characterised`, `Ubig.shr_delivered_correct`, `Ubig.shr_partial`, `Ubig.stored_form_unique`, `Ubig.sub_correct`, `Ubig.sub_self_correct`, `Uniform.between_lower`, `Uniform.between_partial`, `Uniform.exclusive_characterised`, `Uniform.exclusive_divisor`, `Uniform.exclusive_partial`, `Uniform.exclusive_refuted`, `Uniform.inclusive_correct`, `Utf.encode_utf8_correct`, `Utf.first_byte_size_correct`, `Utf.predicted_sizes_partial`, `Utf.utf16_decode_canonical`, `Utf.utf16_round_trip`, `Utf.utf16_to_other_prefix`, `Utf.utf16_to_utf8_code_size_refuted`, `Utf.utf32_to_other_prefix`, `Utf.utf32_utf16_utf32`, `Utf.utf32_utf8_utf32`, `Utf.utf8_decode_canonical`, `Utf.utf8_round_trip`, `Utf.utf8_to_utf16_prefix`, `Utf.utf8_to_utf32_prefix`, `Utf.utf8_to_utf32_size_characterised`, `Utf.utf8_utf16_utf8`, `Val.code_list_characterised`, `Val.code_list_result_partial`, `Val.read_harmless_partial`, `Val.read_keeps`, `Val.reads_end`, `Val.ref_to_characterised`, `Val.special_init_characterised`, `Val.special_init_partial`, `Val.value_readable`, `Val.values_history_partial`, `View.length_of_zero`, `View.literal_in_range`, `View.literal_in_range_characterised`, `View.starts_with_view`, `View.starts_with_zero`, `View.substr_end_characterised`, `View.substr_partial`, `View.view_subview`, `Whole.ceil_characterised`, `Whole.ceil_refuted`, `Whole.ceil_right_partial`, `Whole.floor_characterised`, `Whole.floor_negative`, `Whole.floor_refuted`, `Whole.floor_right_partial`, `Whole.trunc_compiles`, `Whole.trunc_right`, `Wide.frac_arith_partial`, `Wide.frac_compare_partial`, `Wide.frac_delivers`, `Wide.frac_delivers_refuted`, `Wide.gcd_long_partial`, `Wide.gcd_long_refuted`, `Wide.gcd_partial`, `Wide.int_add_partial`, `Wide.int_add_refuted`, `Wide.int_compare_correct`, `Wide.int_div_characterised`, `Wide.int_div_partial`, `Wide.int_mod_partial`, `Wide.int_mul_partial`, `Wide.int_shift_partial`, `Wide.int_step_characterised`, `Wide.int_sub_assign_characterised`, `Wide.int_sub_correct`, `Wide.rat_arith_partial`, `Wide.rat_compare_partial`, `Wide.rat_delivers`, `Wide.rat_simplify_partial`, `Wide.simplify_long_refuted`, `Wide.simplify_partial`, `Wide.split_characterised`, `Wide.trunc_characterised`.
