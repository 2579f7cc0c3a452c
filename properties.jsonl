{"id": "C01", "title": "ubigint built from a native integer converts back unchanged", "statement": "Constructing a ubigint from a native unsigned value v and converting it to an unsigned type of b bits yields v mod 2^b; in particular the round trip is the identity when b covers v, and the stored number never has a leading zero digit.", "quantifier": "every natural v, every digit width, every target width", "why_tests_cant": "The number of digits is unbounded and carries/borrows in the Horner conversion wrap; tests only sample a few magnitudes.", "anchors": ["parts/header_file/files/elc/_files/bignum/bignum/ubigint.hpp:ubigint(T num)", "parts/header_file/files/elc/_files/bignum/bignum/ubigint.hpp:convert_to", "parts/header_file/files/elc/_files/bignum/bignum/ubigint.hpp:shrink_to_fit"]}
{"id": "C02", "title": "ubigint comparison of two big integers is numeric comparison", "statement": "For two ubigints, == holds exactly when their values are equal and <=> reports exactly the numeric order.", "quantifier": "all pairs of ubigints of any length (as produced by the library: no leading zero digits)", "why_tests_cant": "Needs every pair of lengths and every position of the first differing digit.", "anchors": ["parts/header_file/files/elc/_files/bignum/bignum/ubigint.hpp:operator==(const ubigint&)", "parts/header_file/files/elc/_files/bignum/bignum/ubigint.hpp:compare(data_view_type,data_view_type)"]}
{"id": "C03", "title": "ubigint comparison with a native unsigned integer is numeric comparison", "statement": "For a ubigint x and a native unsigned n, x==n holds exactly when the values are equal and x<=>n reports the numeric order.", "quantifier": "all ubigints and all native unsigned values of every width", "why_tests_cant": "Mixed comparison goes through separate digit loops with early exits; a wrong early exit is wrong for a thin set of inputs.", "anchors": ["parts/header_file/files/elc/_files/bignum/bignum/ubigint.hpp:operator==(T&&)", "parts/header_file/files/elc/_files/bignum/bignum/ubigint.hpp:operator<=>(T&&)"]}
{"id": "C04", "title": "ubigint addition is exact", "statement": "x+y and x+=y of two ubigints denote the sum of the values, stored without leading zero digits.", "quantifier": "all pairs of ubigints of any length", "why_tests_cant": "Carry chains can be arbitrarily long and buffer sizes are predicted before adding; only a proof covers every carry pattern.", "anchors": ["parts/header_file/files/elc/_files/bignum/bignum/ubigint.hpp:add_base", "parts/header_file/files/elc/_files/bignum/bignum/ubigint.hpp:add_to_base", "parts/header_file/files/elc/_files/bignum/bignum/ubigint.hpp:get_safety_add_buf_size_diff", "parts/_share/basic_environment/add_sub_carry.hpp"]}
{"id": "C05", "title": "ubigint += native unsigned is exact", "statement": "x+=n for a native unsigned n denotes the sum of the values.", "quantifier": "all ubigints x, all native unsigned n of every width", "why_tests_cant": "Overflow happens only for widths at least as large as the calculation type and a full carry chain.", "anchors": ["parts/header_file/files/elc/_files/bignum/bignum/ubigint.hpp:add_to_base(data_type&,T)"]}
{"id": "C06", "title": "ubigint subtraction is exact and saturates at zero", "statement": "x-y and x-=y denote the difference of the values when x>=y, and zero when x<y.", "quantifier": "all pairs of ubigints", "why_tests_cant": "Borrow chains can be arbitrarily long.", "anchors": ["parts/header_file/files/elc/_files/bignum/bignum/ubigint.hpp:sub_base", "parts/header_file/files/elc/_files/bignum/bignum/ubigint.hpp:sub_with_base", "parts/header_file/files/elc/_files/bignum/bignum/ubigint.hpp:operator-"]}
{"id": "C07", "title": "ubigint ++ and -- change the value by exactly one", "statement": "++x adds one to the value; --x subtracts one from a non-zero value.", "quantifier": "all ubigints", "why_tests_cant": "Wrong behaviour needs a carry or borrow past the first digit, i.e. x divisible by the digit base.", "anchors": ["parts/header_file/files/elc/_files/bignum/bignum/ubigint.hpp:add_one_to_base", "parts/header_file/files/elc/_files/bignum/bignum/ubigint.hpp:sub_one_from_base"]}
{"id": "C08", "title": "ubigint multiplication is exact", "statement": "x*y denotes the product of the values, for operands of every size, on the schoolbook path and on the divide-and-conquer path.", "quantifier": "all pairs of ubigints of any length", "why_tests_cant": "The divide-and-conquer path only starts at 64 digits and its carries may leave the accumulator; random tests practically never produce that pattern.", "anchors": ["parts/header_file/files/elc/_files/bignum/bignum/ubigint.hpp:muti_base", "parts/header_file/files/elc/_files/bignum/bignum/ubigint.hpp:fast_muti_base", "parts/header_file/files/elc/_files/bignum/bignum/ubigint.hpp:offset_add_to_base"]}
{"id": "C09", "title": "ubigint division and remainder satisfy the division identity", "statement": "For y non-zero, q=x/y, r=x%y and divmod(x,y) satisfy x=q*y+r and r<y; for y zero the results are zero.", "quantifier": "all pairs of ubigints of any length", "why_tests_cant": "Quotient digit estimation is wrong only on rare digit patterns.", "anchors": ["parts/header_file/files/elc/_files/bignum/bignum/ubigint.hpp:div_base", "parts/header_file/files/elc/_files/bignum/bignum/ubigint.hpp:mod_base", "parts/header_file/files/elc/_files/bignum/bignum/ubigint.hpp:divmod_with_base", "parts/header_file/files/elc/_files/bignum/bignum/ubigint.hpp:no_mod_optimisation_of_div", "parts/header_file/files/elc/_files/bignum/bignum/ubigint.hpp:div_with_base_no_optimisation"]}
{"id": "C10", "title": "ubigint left shift multiplies by a power of two", "statement": "x<<n and x<<=n denote value*2^n.", "quantifier": "all ubigints x and all shift amounts n", "why_tests_cant": "Digit-offset and bit-offset cases mix; shift amounts are unbounded.", "anchors": ["parts/header_file/files/elc/_files/bignum/bignum/ubigint.hpp:operator<<", "parts/header_file/files/elc/_files/bignum/bignum/ubigint.hpp:operator<<="]}
{"id": "C11", "title": "ubigint right shift divides by a power of two", "statement": "x>>n and x>>=n denote floor(value/2^n) and never read outside the digits of x.", "quantifier": "all ubigints x and all shift amounts n", "why_tests_cant": "The out-of-range read appears only when the top digit vanishes and the bit offset is non-zero.", "anchors": ["parts/header_file/files/elc/_files/bignum/bignum/ubigint.hpp:operator>>", "parts/header_file/files/elc/_files/bignum/bignum/ubigint.hpp:operator>>="]}
{"id": "C12", "title": "ubigint bit queries agree with the binary representation", "statement": "get_bitnum(x) is the binary length of the value, countr_zero(x) the exponent of two in a non-zero value, and bit_at(x,i) bit i.", "quantifier": "all ubigints and all indices", "why_tests_cant": "Ranges over unbounded numbers.", "anchors": ["parts/header_file/files/elc/_files/bignum/bignum/ubigint.hpp:countr_zero", "parts/header_file/files/elc/_files/bignum/bignum/ubigint.hpp:get_bitnum", "parts/header_file/files/elc/_files/bignum/bignum/ubigint.hpp:bit_at"]}
{"id": "C13", "title": "bigint arithmetic agrees with the integers", "statement": "For bigints, +, -, *, /, % and their compound assignments return the integer result (truncating division) for all sign combinations, given exact magnitude arithmetic.", "quantifier": "all pairs of bigints, all sign combinations", "why_tests_cant": "Sign handling is a case analysis with aliasing of 'sign' and 'magnitude order'; each wrong case is invisible to tests of the others.", "anchors": ["parts/header_file/files/elc/_files/bignum/bignum/bigint.hpp:operator+", "parts/header_file/files/elc/_files/bignum/bignum/bigint.hpp:operator-", "parts/header_file/files/elc/_files/bignum/bignum/bigint.hpp:operator+=", "parts/header_file/files/elc/_files/bignum/bignum/bigint.hpp:operator-=", "parts/header_file/files/elc/_files/bignum/bignum/bigint.hpp:operator*=", "parts/header_file/files/elc/_files/bignum/bignum/bigint.hpp:operator/=", "parts/header_file/files/elc/_files/bignum/bignum/bigint.hpp:operator%="]}
{"id": "C14", "title": "bigint comparison agrees with integer order and zero has one sign", "statement": "== and <=> on bigints agree with the integers; no operation yields a negative zero that compares different from zero.", "quantifier": "all pairs of bigints produced by any sequence of operations", "why_tests_cant": "A negative zero only arises from specific operation sequences.", "anchors": ["parts/header_file/files/elc/_files/bignum/bignum/bigint.hpp:operator==", "parts/header_file/files/elc/_files/bignum/bignum/bigint.hpp:operator<=>", "parts/header_file/files/elc/_files/bignum/bignum/bigint.hpp:bigint(ubigint,bool)", "parts/header_file/files/elc/_files/bignum/bignum/bigint.hpp:operator-()"]}
{"id": "C15", "title": "ubigfloat arithmetic is exact rational arithmetic", "statement": "+, -, *, / and the compound assignments on ubigfloat denote the rational result (subtraction saturating at zero), including when an object is combined with itself, and == / <=> compare the rational values.", "quantifier": "all ubigfloats with non-zero denominators, including aliased operands", "why_tests_cant": "Aliasing of operands (x/=x) interleaves reads and writes; values are unbounded fractions.", "anchors": ["parts/header_file/files/elc/_files/bignum/bignum/ubigfloat.hpp:operator+=", "parts/header_file/files/elc/_files/bignum/bignum/ubigfloat.hpp:operator-=", "parts/header_file/files/elc/_files/bignum/bignum/ubigfloat.hpp:operator*=", "parts/header_file/files/elc/_files/bignum/bignum/ubigfloat.hpp:operator/=", "parts/header_file/files/elc/_files/bignum/bignum/ubigfloat.hpp:operator==", "parts/header_file/files/elc/_files/bignum/bignum/ubigfloat.hpp:operator<=>"]}
{"id": "C16", "title": "bigfloat arithmetic agrees with the rationals and zero has one sign", "statement": "+, -, *, / and compound assignments on bigfloat denote the rational result for every sign combination; x-x==0.", "quantifier": "all bigfloats, all sign combinations", "why_tests_cant": "Sign cases and cancellation to zero.", "anchors": ["parts/header_file/files/elc/_files/bignum/bignum/bigfloat.hpp:operator+", "parts/header_file/files/elc/_files/bignum/bignum/bigfloat.hpp:operator-", "parts/header_file/files/elc/_files/bignum/bignum/bigfloat.hpp:operator+=", "parts/header_file/files/elc/_files/bignum/bignum/bigfloat.hpp:operator-=", "parts/header_file/files/elc/_files/bignum/bignum/bigfloat.hpp:operator=="]}
{"id": "C17", "title": "integer to text and back is the identity", "statement": "For every radix representation, from_string_get<T>(to_string(n)) returns n without error for every unsigned n representable in T, and to_string emits no leading zero (a single zero digit for 0).", "quantifier": "all values of every native unsigned type, all radices >= 2", "why_tests_cant": "The domain is 2^64 values per radix.", "anchors": ["parts/header_file/files/elc/_files/numerical_representation/to_string/_body.hpp:to_string_base", "parts/header_file/files/elc/_files/numerical_representation/to_string/_body.hpp:from_string_get_unsigneded", "parts/header_file/files/elc/_files/numerical_representation/representations/comn.hpp:get_char"]}
{"id": "C18", "title": "big integer to text and back is the identity, and splitting does not change the text", "statement": "The divide-and-conquer conversion of a ubigint prints the same digits as repeated division by the radix, and parsing by splitting yields the positional value, so the round trip is the identity.", "quantifier": "all ubigints, all radices >= 2, all digit sizes", "why_tests_cant": "Split points and zero padding of the low half only matter for particular values.", "anchors": ["parts/header_file/files/elc/_files/numerical_representation/to_string/_body.hpp:to_string_base", "parts/header_file/files/elc/_files/numerical_representation/to_string/_body.hpp:from_string_get_unsigneded"]}
{"id": "C19", "title": "text to integer reports an error exactly for invalid characters", "statement": "from_string_get sets the error state exactly when the text holds a character that is not a digit of the representation, and otherwise returns the positional value modulo the size of the type.", "quantifier": "all strings, all radices", "why_tests_cant": "Strings are unbounded.", "anchors": ["parts/header_file/files/elc/_files/numerical_representation/to_string/_body.hpp:from_string_get_unsigneded", "parts/header_file/files/elc/_files/numerical_representation/to_string/_body.hpp:convert_state_t"]}
{"id": "C20", "title": "to_string.fractional prints the exact expansion", "statement": "The printed digits, with the bracketed block repeated forever, denote exactly the fraction.", "quantifier": "all fractions and radices", "why_tests_cant": "Only fractions with a non-repeating prefix before the cycle expose the wrong block start.", "anchors": ["parts/header_file/files/elc/_files/numerical_representation/to_string/_body.hpp:to_string_fractional_base"]}
{"id": "C21", "title": "completing a denominator to a power of the radix is exact", "statement": "get_denominator_complement returns a factor c and decrements the exponent by k such that (old denominator)*c = (new denominator)*radix^k, and the new denominator has no prime of the radix unless it would vanish.", "quantifier": "all denominators, radices and prime tables of the radix", "why_tests_cant": "Unbounded inputs.", "anchors": ["parts/header_file/files/elc/_files/numerical_representation/representations/comn.hpp:get_denominator_complement"]}
{"id": "C22", "title": "big integer literals denote their digits", "statement": "A ubigint literal written in base 2, 8, 10 or 16 (with optional separators) denotes its positional value, although digits are accumulated in machine-word blocks.", "quantifier": "all literals of any length", "why_tests_cant": "The block boundary depends on overflow detection of the scale; lengths are unbounded.", "anchors": ["parts/header_file/files/elc/_files/base_defs/literal_support.hpp:fast_integer_iterator", "parts/header_file/files/elc/_files/base_defs/literal_support.hpp:unsigned_integer_literal_evaler"]}
{"id": "C23", "title": "UTF-8 encoding round-trips and is canonical", "statement": "Decoding the UTF-8 encoding of a code point below 0x110000 returns that code point with the number of bytes written, and every byte sequence the decoder accepts is exactly the encoding of the code point it returns.", "quantifier": "all 32-bit code points; all byte sequences", "why_tests_cant": "Whole Unicode range and all byte sequences.", "anchors": ["parts/_share/char_set/convert.hpp:decode_utf8", "parts/_share/char_set/convert.hpp:encode_utf8", "parts/_share/char_set/convert.hpp:get_encode_utf8_size"]}
{"id": "C24", "title": "UTF-16 encoding round-trips", "statement": "Decoding the UTF-16 encoding of a Unicode scalar value returns that value with the number of units written.", "quantifier": "all code points", "why_tests_cant": "Whole Unicode range.", "anchors": ["parts/_share/char_set/convert.hpp:decode_utf16", "parts/_share/char_set/convert.hpp:encode_utf16"]}
{"id": "C25", "title": "converting a string between encodings and back is lossless", "statement": "For every sequence of Unicode scalar values, UTF-32 to UTF-8 (or UTF-16) and back yields the same sequence with success, and the predicted output sizes equal the sizes written.", "quantifier": "all sequences of any length", "why_tests_cant": "Unbounded strings.", "anchors": ["parts/_share/char_set/convert.hpp:utf32_to_utf8", "parts/_share/char_set/convert.hpp:utf8_to_utf32", "parts/_share/char_set/convert.hpp:get_utf32_to_utf8_size"]}
{"id": "C26", "title": "hash of a concatenation is computable from the hashes of the parts", "statement": "merge_array_hash_results(hash(a),|a|,hash(b),|b|) equals hash(a++b); hence the hash of a string does not depend on how it is split.", "quantifier": "all arrays of any length and any element hash", "why_tests_cant": "Unbounded arrays and all 64-bit hashes.", "anchors": ["parts/header_file/files/elc/_files/base_defs/hash.hpp:with_calculated_before", "parts/header_file/files/elc/_files/base_defs/hash.hpp:merge_array_hash_results"]}
{"id": "C27", "title": "hash of a run of equal elements equals the hash of the expanded run", "statement": "The shortcut for n equal elements returns exactly the hash of the array of n copies.", "quantifier": "all element hashes and all n", "why_tests_cant": "The shortcut reduces n modulo 128 and uses a popcount argument the authors state without proof.", "anchors": ["parts/header_file/files/elc/_files/base_defs/hash.hpp:repeat_times"]}
{"id": "C28", "title": "every sorting routine sorts", "statement": "insertion_sort, heapsort, quicksort and introsort leave the array ordered by the comparator and a permutation of the input, whatever the recursion depth limit; insertion_sort is stable.", "quantifier": "all arrays of any length, all total preorders", "why_tests_cant": "All lengths, all orders.", "anchors": ["parts/header_file/files/elc/_files/base_defs/sort.hpp"]}
{"id": "C29", "title": "substring search returns the first occurrence", "statement": "Searching a pattern in a range returns the first position where it occurs, or null when it does not occur, and reads only inside the range.", "quantifier": "all patterns, ranges and element hash functions", "why_tests_cant": "The skip table is indexed by a hash modulo 256; collisions and skips past the end matter only for particular texts.", "anchors": ["parts/header_file/files/elc/_files/base_defs/range.hpp:match_pattern"]}
{"id": "C30", "title": "reverse substring search returns the last occurrence", "statement": "Searching backwards returns the last position where the pattern occurs, or null when it does not occur.", "quantifier": "all patterns, ranges and element hash functions", "why_tests_cant": "Skips that are too long miss occurrences only for particular texts.", "anchors": ["parts/header_file/files/elc/_files/base_defs/range.hpp:reverse_match_pattern"]}
{"id": "C31", "title": "find_first_of / find_last_of / not_of return the extremal position", "statement": "Each function returns the first (last) position whose element is (is not) in the set, and null when none.", "quantifier": "all ranges and sets", "why_tests_cant": "Unbounded inputs; the not-found path of one of them is undefined.", "anchors": ["parts/header_file/files/elc/_files/base_defs/range.hpp:find_first_of", "parts/header_file/files/elc/_files/base_defs/range.hpp:find_last_of", "parts/header_file/files/elc/_files/base_defs/range.hpp:find_first_not_of", "parts/header_file/files/elc/_files/base_defs/range.hpp:find_last_not_of", "parts/header_file/files/elc/_files/base_defs/range.hpp:bitmark_for_finds"]}
{"id": "C32", "title": "sequence comparison is the documented order", "statement": "compare orders arrays by length then content, compare.lexicographical is dictionary order, for sized arrays and zero-terminated arrays alike, reading no element past either end.", "quantifier": "all pairs of arrays", "why_tests_cant": "Termination conditions differ per overload and matter only when one is a prefix of the other.", "anchors": ["parts/header_file/files/elc/_files/base_defs/compare.hpp:compare_t", "parts/header_file/files/elc/_files/base_defs/compare.hpp:lexicographical"]}
{"id": "C33", "title": "bit operations agree with the binary representation", "statement": "rotl/rotr are inverse rotations, get_bitnum, countl_zero, countr_zero, countl_one, countr_one return the documented counts.", "quantifier": "all values of every width", "why_tests_cant": "All 2^64 values.", "anchors": ["parts/header_file/files/elc/_files/base_defs/bit.hpp"]}
{"id": "C34", "title": "bitset behaves like an array of booleans", "statement": "set/get at an index, conversion from and to an integer, equality and shifts of a bitset<N> agree with the N-bit array they denote.", "quantifier": "all N, all contents, all indices and shift amounts", "why_tests_cant": "All contents of all sizes.", "anchors": ["parts/header_file/files/elc/_files/base_defs/bitset.hpp"]}
{"id": "C35", "title": "integer_log, pow and factorial return the mathematical value", "statement": "integer_log(a,b) is the greatest k with b^k<=a, pow(a,b)=a^b, factorial(n,s)=s(s+1)...(s+n-1), in unbounded arithmetic.", "quantifier": "all a>=1, b>=2, all exponents and counts", "why_tests_cant": "Unbounded arguments; nested doubling recursion.", "anchors": ["parts/header_file/files/elc/_files/base_defs/math.hpp:integer_log", "parts/header_file/files/elc/_files/base_defs/math.hpp:pow", "parts/header_file/files/elc/_files/base_defs/math.hpp:factorial"]}
{"id": "C36", "title": "gcd returns the greatest common divisor", "statement": "binary_gcd and euclidean_gcd return the greatest common divisor, including when an argument is zero.", "quantifier": "all pairs of naturals", "why_tests_cant": "Unbounded arguments.", "anchors": ["parts/header_file/files/elc/_files/base_defs/math.hpp:binary_gcd", "parts/header_file/files/elc/_files/base_defs/math.hpp:euclidean_gcd"]}
{"id": "C37", "title": "is_prime_num decides primality", "statement": "For n>=4 is_prime_num(n) is true exactly when n is prime.", "quantifier": "all n", "why_tests_cant": "All n.", "anchors": ["parts/header_file/files/elc/_files/base_defs/math.hpp:is_prime_num", "parts/header_file/files/elc/_files/base_defs/math.hpp:is_prime_num_no_pre_check"]}
{"id": "C38", "title": "next and previous prime functions return the neighbouring prime", "statement": "get_prime_num_big_or_eq_than(a) is the least prime >= a and get_prime_num_less_or_eq_than(a) the greatest prime <= a.", "quantifier": "all a>=4", "why_tests_cant": "Wrong only for some residues modulo 6 combined with particular prime gaps.", "anchors": ["parts/header_file/files/elc/_files/base_defs/math.hpp:get_prime_num_big_or_eq_than", "parts/header_file/files/elc/_files/base_defs/math.hpp:get_prime_num_less_or_eq_than", "parts/header_file/files/elc/_files/base_defs/math.hpp:get_prime_num_big_than"]}
{"id": "C39", "title": "prime factorisation terminates and multiplies back", "statement": "get_prime_factorization(n) terminates for n>=1 and returns primes whose product is n.", "quantifier": "all n>=1", "why_tests_cant": "Skipping one prime makes the loop run forever for its multiples only.", "anchors": ["parts/header_file/files/elc/_files/base_defs/math.hpp:get_prime_factorization"]}
{"id": "C40", "title": "hash_table behaves like a set of records", "statement": "After any sequence of add, remove and find, a find returns the most recently added matching record still present, and rehashing, moving to front and shrinking never change the answers.", "quantifier": "all operation histories, hash functions and resize points", "why_tests_cant": "All histories and collision patterns.", "anchors": ["parts/header_file/files/elc/_files/base/container/hash_table/defs.hpp"]}
{"id": "C41", "title": "map behaves like a finite function with defaults", "statement": "Reading a key returns the last value assigned to it or the default value; equality compares the functions; shrink never changes what is read.", "quantifier": "all histories of operations", "why_tests_cant": "All histories.", "anchors": ["parts/header_file/files/elc/_files/base/container/map/defs.hpp"]}
{"id": "C42", "title": "copy_on_write handles are isolated", "statement": "Modifying the value through one handle never changes what any other handle reads, although copies share storage.", "quantifier": "all histories of copy, assign and modify", "why_tests_cant": "All sharing patterns.", "anchors": ["parts/header_file/files/elc/_files/base/container/copy_on_write/defs.hpp"]}
{"id": "C43", "title": "pool allocator hands out distinct live slots and recycles them", "statement": "Between allocation and release no slot is handed out twice, every released slot becomes available again, and a release returns the slot to the block it came from.", "quantifier": "all allocation histories, element sizes and block counts", "why_tests_cant": "All histories; the membership test is wrong only for slots far enough into a block.", "anchors": ["parts/header_file/files/elc/_files/base/memory/pool/defs.hpp"]}
{"id": "C44", "title": "string reads do not depend on the internal representation", "statement": "Indexing, copying out a part, substring, length and hash of a string return the same result whichever chain of lazy concatenations, insertions, erasures, prefixes, suffixes, substrings and runs it is stored as.", "quantifier": "all representations of any nesting depth, all indices and ranges", "why_tests_cant": "Nesting is unbounded and every node kind forwards with its own index arithmetic.", "anchors": ["parts/header_file/files/elc/_files/string/string_data_t/sum_string_data_t.hpp", "parts/header_file/files/elc/_files/string/string_data_t/substr_string_data_t.hpp", "parts/header_file/files/elc/_files/string/string_data_t/inserted_string_data_t.hpp", "parts/header_file/files/elc/_files/string/string_data_t/erased_string_data_t.hpp", "parts/header_file/files/elc/_files/string/string_data_t/end_apply_string_data_t.hpp", "parts/header_file/files/elc/_files/string/string_data_t/head_apply_string_data_t.hpp", "parts/header_file/files/elc/_files/string/string_data_t/same_value_compress_string_data_t.hpp"]}
{"id": "C45", "title": "string edits are the list edits", "statement": "insert, erase, push/pop/remove at front and back, substring and assignment to one index give the string obtained by the same edit on a plain sequence, whichever nodes are shared or exclusively owned at the time.", "quantifier": "all representations, all edit arguments, all sharing patterns", "why_tests_cant": "Every node kind has its own fast path chosen by sharing and position.", "anchors": ["parts/header_file/files/elc/_files/string/string_data_t/base_string_data_t.hpp:do_insert", "parts/header_file/files/elc/_files/string/defs.hpp"]}
{"id": "C46", "title": "equal strings have equal hashes", "statement": "Two strings that compare equal have the same hash.", "quantifier": "all pairs of strings in all representations", "why_tests_cant": "Representation dependent.", "anchors": ["parts/header_file/files/elc/_files/string/defs.hpp:hash", "parts/header_file/files/elc/_files/base_defs/hash.hpp"]}
{"id": "C47", "title": "logical_bool obeys its documented algebra", "statement": "!, &&, || and == on the four-valued booleans plus unknown satisfy involution, De Morgan, commutativity, associativity, and unknown is absorbing.", "quantifier": "all values", "why_tests_cant": "Algebraic laws over all combinations.", "anchors": ["parts/header_file/files/elc/_files/base_defs/logical_bool.hpp"]}
{"id": "C48", "title": "random integers stay in the requested range", "statement": "rand.between(a,b) inclusive returns a value in [min(a,b),max(a,b)], exclusive one in [min,max), whatever the generator yields, whenever it returns; every value of the range can be returned.", "quantifier": "all bounds and all generator outputs", "why_tests_cant": "Quantifies over all generator states; the full-width range and the empty exclusive range misbehave.", "anchors": ["parts/header_file/files/elc/_files/random/defs.hpp:between_integral_t", "parts/header_file/files/elc/_files/random/defs.hpp:gen_randbit_with_bitnum"]}
{"id": "C49", "title": "the generator state has full period", "statement": "Starting from any seed the internal state visits all 2^64 values before repeating.", "quantifier": "all seeds", "why_tests_cant": "2^64 steps cannot be tested.", "anchors": ["parts/header_file/files/elc/_files/random/defs.hpp:base_gen_randbit", "parts/header_file/files/elc/_files/random/defs.hpp:get_multiplier_by_modulus"]}
{"id": "C50", "title": "push-back streams return unread data first", "statement": "After unread(d) on a wrapped input stream, reading returns d followed by what would have been read, for any interleaving of read and unread.", "quantifier": "all histories of read and unread, all buffer growth points", "why_tests_cant": "All histories; buffer growth only after 1024 elements.", "anchors": ["parts/header_file/files/elc/_files/base_stream/unreadable_wrap/_body.hpp", "parts/header_file/files/elc/_files/base/container/array/defs.hpp:forward_resize"]}
{"id": "C51", "title": "reference counted handles free exactly once and never early", "statement": "An object stays alive while any strong handle refers to it, its storage stays while any strong or weak handle refers to it, and it is destroyed exactly once after the last strong handle goes away, for any history of copy, assignment (including self-assignment), reset and destruction.", "quantifier": "all histories of handle operations", "why_tests_cant": "All histories.", "anchors": ["parts/header_file/files/elc/_files/base/memory/ptr/ptr/base_ptr_t.hpp", "parts/header_file/files/elc/_files/base/memory/ptr/ref/ref_able.hpp", "parts/header_file/files/elc/_files/base/memory/ptr/ref/weak_ref_able.hpp"]}
{"id": "C52", "title": "intrusive list iteration yields the live nodes in insertion order", "statement": "After any sequence of add and destruction of nodes, walking from begin to end visits exactly the nodes still alive in the order they were added.", "quantifier": "all histories", "why_tests_cant": "All pointer configurations.", "anchors": ["parts/header_file/files/elc/_files/base_defs/list.hpp"]}
{"id": "C53", "title": "text conversions stop at the longest valid prefix", "statement": "Converting a text between UTF-8, UTF-16 and UTF-32 processes exactly the longest prefix of the input that is valid, writes exactly the encoding of that prefix, returns the position right after it, and reports success exactly when the whole input was converted.", "quantifier": "all input sequences of code units, valid or not, of any length", "why_tests_cant": "Invalid input can break off at any position and in any of several ways; no finite set of samples covers all texts.", "anchors": ["parts/_share/char_set/convert.hpp: utf8_to_utf32, utf32_to_utf8, utf8_to_utf16, utf16_to_utf8, utf16_to_utf32, utf32_to_utf16"]}
{"id": "C54", "title": "the text of a fraction denotes it", "statement": "to_string of a finite big fraction writes a text that denotes exactly that fraction; from_string_get of any text made of digits, a point, a division and exponents gives exactly the number the text denotes; so reading back what was written gives the same number, sign included.", "quantifier": "all finite fractions, all well-formed texts of any length, all representations", "why_tests_cant": "The text form depends on the prime factors of the denominator; numerators, denominators and exponents are unbounded.", "anchors": ["parts/header_file/files/elc/_files/numerical_representation/to_string/_body.hpp:to_string_base, get_denominator_complement, from_string_get_base"]}
{"id": "C55", "title": "signed integer to text and back is the identity", "statement": "to_string of a signed native integer writes its sign and the digits of its absolute value, and from_string_get gives the same integer back; a leading plus sign is accepted.", "quantifier": "all values of every native signed type, all radices >= 2", "why_tests_cant": "2^64 values per radix, and the failing value is a single one per type.", "anchors": ["parts/header_file/files/elc/_files/numerical_representation/to_string/_body.hpp:to_string_base, from_string_get_signeded", "parts/header_file/files/elc/_files/base_defs/math.hpp:abs"]}
{"id": "C56", "title": "fraction literals denote their digits", "statement": "A _ubigfloat literal denotes exactly the number its digits, point and exponent stand for: the digits read in the base, divided by the base once for every digit after the point, times the base raised to the exponent; the exponent is itself an integer literal with that base as default (so a leading zero makes it octal).", "quantifier": "all decimal and hexadecimal fraction literals of any length, separators anywhere", "why_tests_cant": "Literals are unbounded in length and in the position of the point.", "anchors": ["parts/header_file/files/elc/_files/base_defs/literal_support.hpp:unsigned_float_literal_evaler", "parts/header_file/files/elc/_files/bignum/bignum/literal.hpp:operator\"\"_ubigfloat"]}
{"id": "C57", "title": "position lookup table", "statement": "Building the position table of a list succeeds exactly when no element is repeated and every element is below 256; the table then returns the position of each element and npos for every other value of the type.", "quantifier": "all lists of integers of every integer type and all looked-up values", "why_tests_cant": "The table is indexed by the low byte; values that agree with an element only there are most of the type.", "anchors": ["parts/header_file/files/elc/_files/base_defs/range.hpp:bitmark_for_quick_unindex", "parts/header_file/files/elc/_files/base_defs/data.hpp:number_of_possible_values_per"]}
{"id": "C58", "title": "equality of arrays in all calling forms", "statement": "equal tells whether two sequences are equal, whether each is given by a size or ended by zero, and for a part whether it is a prefix, reading no element past either end; compare.reverse exchanges less and greater and nothing else.", "quantifier": "all pairs of sequences", "why_tests_cant": "Prefixes, embedded zeros and unequal lengths interact; reads past the end are invisible to tests.", "anchors": ["parts/header_file/files/elc/_files/base_defs/compare.hpp:equal_t", "parts/header_file/files/elc/_files/base_defs/compare.hpp:reverse"]}
{"id": "C59", "title": "max and min return an extremal argument", "statement": "max of any number of arguments returns the first greatest one and min the last least one; for lists both return the first.", "quantifier": "all non-empty argument lists and keys", "why_tests_cant": "Which of several equal arguments is returned depends on the nesting of calls; all argument counts are meant.", "anchors": ["parts/header_file/files/elc/_files/base_defs/min_max.hpp:max_t", "parts/header_file/files/elc/_files/base_defs/min_max.hpp:min_t"]}
{"id": "C60", "title": "ceil_div rounds up", "statement": "ceil_div(a,b) is the least q with a <= q*b.", "quantifier": "all a and all b other than zero", "why_tests_cant": "All pairs of numbers.", "anchors": ["parts/header_file/files/elc/_files/base_defs/math.hpp:ceil_div"]}
{"id": "C61", "title": "string equality and order do not depend on the representation", "statement": "`==` of two strings, of a string and a view and of a string and a zero-terminated text says whether the characters are the same; `<=>` orders strings by length and then by the first difference; whichever lazy concatenations, insertions, erasures, prefixes, suffixes, substrings and runs the strings are stored as.", "quantifier": "all pairs of representations of any nesting depth", "why_tests_cant": "Comparison walks two unbounded trees array by array, with a fast path for every pair of equal node kinds.", "anchors": ["parts/header_file/files/elc/_files/string/string_data_t/base_string_data_t.hpp:equal_with", "parts/header_file/files/elc/_files/string/string_data_t/base_string_data_t.hpp:compare_with"]}
{"id": "C62", "title": "printing a string writes its characters", "statement": "Writing a string to a stream writes exactly its characters, once and in order, and ends, whichever representation the string is stored as.", "quantifier": "all representations of any nesting depth", "why_tests_cant": "The loop fetches one array after another from an unbounded tree.", "anchors": ["parts/header_file/files/elc/_files/string/string_data_t/base_string_data_t.hpp:do_output"]}
{"id": "C63", "title": "how a string is stored is not visible", "statement": "Size, indexing, substring, resize, pad_left, pad_right, the constructor from a repeated character and every in-place edit give the same characters whether the string is a compile-time text, a single character kept in place or a shared or exclusive tree of nodes.", "quantifier": "all strings, all arguments in range, all trees and sharing patterns", "why_tests_cant": "Unbounded trees times three kinds of storage times all arguments.", "anchors": ["parts/header_file/files/elc/_files/string/defs.hpp:size", "parts/header_file/files/elc/_files/string/defs.hpp:substr", "parts/header_file/files/elc/_files/string/defs.hpp:resize", "parts/header_file/files/elc/_files/string/defs.hpp:pad_left", "parts/header_file/files/elc/_files/string/defs.hpp:pad_right", "parts/header_file/files/elc/_files/string/defs.hpp:insert", "parts/header_file/files/elc/_files/string/defs.hpp:arec_t"]}
{"id": "C64", "title": "comparison of strings, however they are stored", "statement": "`==` and `<=>` of two strings, and with zero-terminated text, depend only on the characters, and do not change the characters of either string.", "quantifier": "all pairs of strings and storages", "why_tests_cant": "All pairs of storages; the functions write to their const operands.", "anchors": ["parts/header_file/files/elc/_files/string/defs.hpp:operator==", "parts/header_file/files/elc/_files/string/defs.hpp:operator<=>"]}
{"id": "C65", "title": "adding strings", "statement": "`+`, `+=`, push_back and push_front give the concatenation; the operand keeps its characters; a string can be added to itself.", "quantifier": "all strings, storages and sharing patterns", "why_tests_cant": "Depends on who else owns which node.", "anchors": ["parts/header_file/files/elc/_files/string/defs.hpp:push_back", "parts/header_file/files/elc/_files/string/defs.hpp:push_front", "parts/header_file/files/elc/_files/string/defs.hpp:operator+", "parts/header_file/files/elc/_files/string/defs.hpp:operator+="]}
{"id": "C66", "title": "equal strings have equal hashes", "statement": "The hash of a string depends only on its characters.", "quantifier": "all strings and storages", "why_tests_cant": "All pairs of storages.", "anchors": ["parts/header_file/files/elc/_files/string/defs.hpp:operator hash_t"]}
{"id": "C67", "title": "searching in a string", "statement": "find and reverse_find give the first and last position of a character; find with a start gives the first position at or after it, for a character and for a pattern.", "quantifier": "all strings, patterns and starts", "why_tests_cant": "All strings and starts.", "anchors": ["parts/header_file/files/elc/_files/string/defs.hpp:find", "parts/header_file/files/elc/_files/string/defs.hpp:reverse_find"]}
{"id": "C68", "title": "replacing in a string", "statement": "replace(pos,size,str) replaces exactly that range; replace(a,b) replaces every occurrence from left to right, and ends.", "quantifier": "all strings, patterns and replacements", "why_tests_cant": "Termination and the number of occurrences are unbounded.", "anchors": ["parts/header_file/files/elc/_files/string/defs.hpp:replace"]}
{"id": "C69", "title": "starts_with and ends_with", "statement": "starts_with and ends_with say whether the string begins or ends with the text, string, character, or run of a character.", "quantifier": "all strings and texts", "why_tests_cant": "All strings and storages.", "anchors": ["parts/header_file/files/elc/_files/string/defs.hpp:starts_with", "parts/header_file/files/elc/_files/string/defs.hpp:ends_with"]}
{"id": "C70", "title": "pointers to the characters", "statement": "data and a view are the characters of the string, c_str is the same and terminated, and a write through the pointer changes that character only and leaves the hash right.", "quantifier": "all strings and storages", "why_tests_cant": "All trees; the flat copy depends on the tree.", "anchors": ["parts/header_file/files/elc/_files/string/defs.hpp:data", "parts/header_file/files/elc/_files/string/defs.hpp:c_str", "parts/header_file/files/elc/_files/string/defs.hpp:operator string_view_t", "parts/header_file/files/elc/_files/string/defs.hpp:unique_c_str"]}
{"id": "C71", "title": "splitting by a delimiter", "statement": "s.arec(i,d) is the i-th part of s between delimiters d.", "quantifier": "all strings, indices and delimiters", "why_tests_cant": "All strings and indices.", "anchors": ["parts/header_file/files/elc/_files/string/defs.hpp:arec"]}
{"id": "C72", "title": "copying and constructing strings", "statement": "Assigning a string to itself changes nothing; a string from two iterators of a string holds the characters between them.", "quantifier": "all strings and ranges", "why_tests_cant": "Depends on ownership of the node.", "anchors": ["parts/header_file/files/elc/_files/string/defs.hpp:operator=", "parts/header_file/files/elc/_files/string/defs.hpp:string_t"]}
{"id": "C73", "title": "arrays are lists", "statement": "Whatever sequence of constructions, copies, moves, swaps, clears, resizes at either end, insertions, pushes, appends and element writes a program makes on its arrays, with positions and sizes in range and sources outside the array being changed, no operation faults and every array holds what the same operations make of lists; for_each meets every element once.", "quantifier": "all element kinds, all histories over any number of arrays, all choices of the allocator whether a growing block moves", "why_tests_cant": "Every history and every choice of the allocator; undefined behaviour need not show in a test.", "anchors": ["parts/header_file/files/elc/_files/base/container/array/defs.hpp:array_t", "parts/header_file/files/elc/_files/base/memory/get/defs.hpp:get_resize_t", "parts/header_file/files/elc/_files/base_defs/memory/lifetime/defs.hpp:move_construct"]}
{"id": "C74", "title": "array memory and elements are given back once", "statement": "At every point of every such history memory holds one block for each non-empty array and nothing else, no element is destroyed twice, overwritten while alive or lost with its block; when all arrays are empty all memory has been given back.", "quantifier": "all element kinds, all histories, all choices of the allocator", "why_tests_cant": "A leak or double destruction is silent; must hold after every history.", "anchors": ["parts/header_file/files/elc/_files/base/memory/get/defs.hpp:unget", "parts/header_file/files/elc/_files/base/memory/alloc/defs.hpp:realloc", "parts/header_file/files/elc/_files/base_defs/memory/lifetime/defs.hpp:destruct"]}
{"id": "C75", "title": "an array's own elements as source", "statement": "push_back(a[i]), a += a, and insertions into a of elements of a give the array with those elements added.", "quantifier": "all element kinds, histories, indices, counts, allocator choices", "why_tests_cant": "Depends on whether the block moves.", "anchors": ["parts/header_file/files/elc/_files/base/container/array/defs.hpp:push_back", "parts/header_file/files/elc/_files/base/memory/get/defs.hpp:apply_end_t"]}
{"id": "C76", "title": "removing an element from an array", "statement": "a.remove(v) takes the first element equal to v out of a and says whether there was one; a stays usable.", "quantifier": "all element kinds, contents and values", "why_tests_cant": "Depends on how many elements follow and on the element kind.", "anchors": ["parts/header_file/files/elc/_files/base/container/array/defs.hpp:remove", "parts/header_file/files/elc/_files/base/memory/get/defs.hpp:remove"]}
{"id": "C77", "title": "insertion combined with resizing", "statement": "insert_with_resize and its forward form give the array the size asked for, the new elements at their place, and default elements in the rest, also when only part of the block is in use.", "quantifier": "all sizes, used sizes, positions, element kinds", "why_tests_cant": "All combinations of sizes and used parts.", "anchors": ["parts/header_file/files/elc/_files/base/memory/get/defs.hpp:insert_with_resize", "parts/header_file/files/elc/_files/base/memory/get/defs.hpp:part_used_block_alloc_size_grow_with_insert_uninitialized_data"]}
{"id": "C78", "title": "values are names for places", "statement": "Values that were made by copying one another, or bound with ref_to or >>, stand for one place: an assignment through one is read through all, rebinding one rebinds all that share its place, re_ref_to and un_ref move one value only, and every read comes to an end.", "quantifier": "all finite histories of making, copying, assigning, reading and rebinding values", "why_tests_cant": "Sharing depends on the whole history of rebindings.", "anchors": ["parts/header_file/files/elc/_files/core/base_def/value.hpp:value", "parts/header_file/files/elc/_files/core/base_def/value.hpp:ref_to", "parts/header_file/files/elc/_files/core/base_def/value.hpp:un_ref", "parts/header_file/files/elc/_files/core/base_def/value.hpp:re_ref_to", "parts/header_file/files/elc/_files/base/memory/other/replace_able.hpp:be_replace_as", "parts/header_file/files/elc/_files/base/memory/other/replace_able.hpp:get_ptr"]}
{"id": "C79", "title": "reading a value has no effect", "statement": "A read put into a program changes neither what any other read gives nor what the rest of the program does.", "quantifier": "all histories and all places in them", "why_tests_cant": "Histories before and after the read are unbounded.", "anchors": ["parts/header_file/files/elc/_files/core/base_def/value.hpp:get_value", "parts/header_file/files/elc/_files/base/memory/ptr/ptr/base_ptr_t.hpp:replace_check", "parts/header_file/files/elc/_files/base/memory/ptr/ptr/base_ptr_t.hpp:do_replace"]}
{"id": "C80", "title": "values without data read as void", "statement": "A value made with special_init reads as void, and assignments to it are ignored.", "quantifier": "all histories before it is made", "why_tests_cant": "The shared object behind such values is changed by other parts of the history.", "anchors": ["parts/header_file/files/elc/_files/core/base_def/value.hpp:null_data_t", "parts/header_file/files/elc/_files/core/base_def/value.hpp:null_data", "parts/header_file/files/elc/_files/core/base_def/value.hpp:value"]}
{"id": "C81", "title": "code lists answer with their last value", "statement": "Evaluating a code list evaluates its elements in order, follows jumps, stops at a return, and answers with the value of the element evaluated last; it changes no other value, and the answer stays what it was.", "quantifier": "all code lists that come to an end, all states of the values", "why_tests_cant": "Lists, jumps and states are unbounded.", "anchors": ["parts/header_file/files/elc/_files/core/nodes/code_list.hpp:be_eval", "parts/header_file/files/elc/_files/core/runtime_exception/core_runtime_internal_helper.hpp:return_t", "parts/header_file/files/elc/_files/core/base_def/node_like_using_value_func_defs.hpp:be_eval"]}
{"id": "C82", "title": "pointers to nodes compare by identity or payload", "statement": "== between pointers to nodes does not depend on the order, is an equivalence, is yes exactly for the same node or for binary nodes with equal payloads of one type, and pointers that are == have the same hash.", "quantifier": "all heaps of nodes, all pairs and triples of nodes, all payload types", "why_tests_cant": "Heaps, payload types and their comparisons are unbounded.", "anchors": ["parts/header_file/files/elc/_files/core/base_def/node_like.hpp:eq_with", "parts/header_file/files/elc/_files/core/special_values/base_constexpr.hpp:eq_level", "parts/header_file/files/elc/_files/core/nodes/binary_node_t.hpp:was_eq_with", "parts/header_file/files/elc/_files/core/nodes/binary_node_t.hpp:operator hash_t"]}
{"id": "C83", "title": "nodes compare by content", "statement": "== between nodes does not depend on the order, is an equivalence, compares pairs part by part, common nodes as maps and functions as functions, and equal nodes have the same hash.", "quantifier": "all heaps of nodes, all pairs and triples of nodes", "why_tests_cant": "Heaps and maps are unbounded.", "anchors": ["parts/header_file/files/elc/_files/core/base_def/node_like.hpp:equal_with", "parts/header_file/files/elc/_files/core/nodes/cons.hpp:was_equal_with", "parts/header_file/files/elc/_files/core/nodes/common_node.hpp:was_equal_with", "parts/header_file/files/elc/_files/core/nodes/function_node.hpp:was_equal_with", "parts/header_file/files/elc/_files/core/special_values/t.hpp:was_equal_with"]}
{"id": "C84", "title": "lists hold their items", "statement": "make_list gives a chain of pairs ending in nil whose parts are the items in order, changes no other node, and two lists are equal exactly when their items are.", "quantifier": "all lists of nodes, all heaps, nodes made later", "why_tests_cant": "Lists are unbounded.", "anchors": ["parts/header_file/files/elc/_files/core/nodes/cons.hpp:make_list", "parts/header_file/files/elc/_files/core/nodes/cons.hpp:was_equal_with"]}
{"id": "C85", "title": "indexing a pair by another key keeps its parts", "statement": "When a pair is indexed by something else than t or nil it becomes a node whose t and nil are the parts it had and whose new record is void.", "quantifier": "all histories of the values before, all pairs of parts", "why_tests_cant": "What a part is bound to depends on the whole history.", "anchors": ["parts/header_file/files/elc/_files/core/nodes/cons.hpp:arec", "parts/header_file/files/elc/_files/core/base_def/value.hpp:ref_to"]}
{"id": "C86", "title": "kept nodes are right and shared", "statement": "make_long_term_binary_node_from answers with a binary node that has the given payload, the same one for equal payloads as long as it is not changed, and changes no other node.", "quantifier": "all histories of keeping, making, changing and replacing nodes", "why_tests_cant": "Histories are unbounded.", "anchors": ["parts/header_file/files/elc/_files/core/nodes/binary_node_t.hpp:make_long_term_binary_node_from", "parts/header_file/files/elc/_files/core/nodes/binary_node_t.hpp:const_use_by_ref_as"]}
{"id": "C87", "title": "collection destroys what cannot be reached", "statement": "gc() leaves every object that can be reached from root pointers as it was and destroys every other object of the collected types exactly once, also objects that point to each other in circles.", "quantifier": "all heaps with counted pointers, all sets of roots", "why_tests_cant": "Heaps and the shapes of garbage in them are unbounded.", "anchors": ["parts/header_file/files/elc/_files/base/memory/gc/gc_t/default_method/defs.hpp:default_gc_method", "parts/header_file/files/elc/_files/base/memory/other/can_map_all.hpp:map_all_helper", "parts/header_file/files/elc/_files/base/memory/ptr/ref/ref_able.hpp:cut_ref"]}
{"id": "C88", "title": "root pointers are the roots", "statement": "What any existing root_ptr_t points to is kept by a collection, and root pointers that no longer exist do not matter.", "quantifier": "all histories of making, copying, assigning and destroying root pointers", "why_tests_cant": "Histories are unbounded.", "anchors": ["parts/header_file/files/elc/_files/base/memory/gc/gc_flags/roots/_body.hpp:root_of", "parts/header_file/files/elc/_files/base/memory/gc/gc_flags/roots/_body.hpp:map_and_mark", "parts/header_file/files/elc/_files/base/memory/gc/root_ptr/defs.hpp:root_ptr_t"]}
{"id": "C89", "title": "gc.success tells whether something was freed", "statement": "gc() collects all added types, cannot be started while it runs or without an added type, and afterwards success() says whether there are fewer objects of an added type than before.", "quantifier": "all sets of added types and numbers of objects", "why_tests_cant": "The added types and numbers are unbounded.", "anchors": ["parts/header_file/files/elc/_files/base/memory/gc/gc_t/defs.hpp:gc_t", "parts/header_file/files/elc/_files/base/memory/gc/gc_t/defs.hpp:success", "parts/header_file/files/elc/_files/base/memory/gc/gc_t/default_method/defs.hpp:default_gc_success_identifier", "parts/header_file/files/elc/_files/base_defs/count_able.hpp:count_able"]}
{"id": "C90", "title": "functions are names for callables", "statement": "A program that makes, copies, moves, assigns, empties, compares and calls function_t objects sees what it would see if they were names for callables that are never destroyed: copies share one state, an empty function returns the default, a callable is destroyed once and only when no function names it any more; deep_copy gives a function with a state of its own; a function is equal to its copies.", "quantifier": "all programs with functions, also such that change functions while they run; all callable types", "why_tests_cant": "Histories of copies, assignments and nested calls are unbounded.", "anchors": ["parts/header_file/files/elc/_files/base/container/function/base_function_t.hpp:function_data_saver_t", "parts/header_file/files/elc/_files/base/container/function/base_function_t.hpp:base_func_data_t", "parts/header_file/files/elc/_files/base/container/function/base_function_t.hpp:deep_copy", "parts/header_file/files/elc/_files/base/container/function/base_function_t.hpp:func_data_t", "parts/header_file/files/elc/_files/base_defs/function_base.hpp:function_data_wrapper_t"]}
{"id": "C91", "title": "pointers made from functions", "statement": "A pointer to a function made from a function_t does what the function does until the thread makes another one of the type or the function object ends; in a thread that has made none it does what the one does that was made last by any thread before the call.", "quantifier": "all programs and schedules of threads that make and call such pointers", "why_tests_cant": "Schedules are unbounded.", "anchors": ["parts/header_file/files/elc/_files/base/container/function/base_function_t.hpp:_func_ptr_value", "parts/header_file/files/elc/_files/base/container/function/base_function_t.hpp:operator func_ptr_t", "parts/header_file/files/elc/_files/base/container/function/base_function_t.hpp:get_func_ptr"]}
{"id": "C92", "title": "taking native numbers apart", "statement": "For every finite number of a native floating point type, digits times two to the exponent, as delivered by get_precision and get_exponent, is the magnitude of the number.", "quantifier": "all finite bit patterns of float16_t, bfloat16_t, float, double and float128_t", "why_tests_cant": "There are 2^64 and 2^128 numbers; the properties are about every one.", "anchors": ["parts/_share/basic_environment/after_math.hpp:get_precision", "parts/_share/basic_environment/after_math.hpp:get_exponent", "parts/_share/basic_environment/float_info.hpp:float64_float_info", "parts/_share/basic_environment/float_info.hpp:float16_float_info"]}
{"id": "C93", "title": "building native numbers", "statement": "make_float(n,e) is n·2^e when the type has this number, otherwise a number of the type next to it: infinity above the range, zero below it. Taking a number apart and building it again gives the number.", "quantifier": "all words n, all exponents, all native types", "why_tests_cant": "The arguments range over 2^64 words and all exponents.", "anchors": ["parts/_share/basic_environment/after_math.hpp:make_float"]}
{"id": "C94", "title": "fractions to native numbers", "statement": "Converting a big fraction to a native floating point type gives the number of the type nearest to it: the number itself when it has one, infinity above the range, zero below.", "quantifier": "all big fractions, all native types", "why_tests_cant": "The fractions are unbounded.", "anchors": ["parts/header_file/files/elc/_files/bignum/bignum/ubigfloat.hpp:convert_to", "parts/_share/basic_environment/after_math.hpp:make_float"]}
{"id": "C95", "title": "native numbers to big numbers", "statement": "The big integer of a native number is its integer part. The big fraction of a native number is that number, and converting it back gives the number.", "quantifier": "all finite numbers of a native type that are not negative", "why_tests_cant": "There are 2^64 and 2^128 numbers; the guess of a fraction depends on rounding for each one.", "anchors": ["parts/header_file/files/elc/_files/bignum/bignum/ubigfloat.hpp:ubigfloat", "parts/_share/basic_environment/after_math.hpp:to_divide", "parts/header_file/files/elc/_files/bignum/bignum/ubigint.hpp:ubigint"]}
{"id": "C96", "title": "reading native numbers from text", "statement": "A text that denotes a number is read as the nearest number of the native type; above the range as infinity, below it as zero.", "quantifier": "all texts that denote a number, all usable numeral systems, all native types", "why_tests_cant": "Texts and numbers are unbounded.", "anchors": ["parts/header_file/files/elc/_files/numerical_representation/to_string/_body.hpp:from_string_get_unsigneded", "parts/header_file/files/elc/_files/bignum/bignum/ubigfloat.hpp:convert_to"]}
{"id": "C97", "title": "texts of native numbers", "statement": "Printing a native floating point number in any usable numeral system comes to an end with a text. The text denotes a number the printed one is the rounding of, and reading the text back gives the printed number.", "quantifier": "all finite numbers of float, double and float128_t that are not negative, all usable numeral systems", "why_tests_cant": "There are 2^64 and 2^128 numbers and every radix; whether the digits kept suffice depends on each one.", "anchors": ["parts/header_file/files/elc/_files/numerical_representation/to_string/_body.hpp:to_string_base", "parts/header_file/files/elc/_files/numerical_representation/to_string/_body.hpp:apply_info_threshold"]}
{"id": "C98", "title": "integer logarithm", "statement": "integer_log(a,b) for a of at least one and b of at least two is the exponent k with b^k <= a < b^(k+1).", "quantifier": "all big integers, all native unsigned integers", "why_tests_cant": "The integers are unbounded, and for a native type the products may exceed it.", "anchors": ["parts/header_file/files/elc/_files/base_defs/math.hpp:integer_log"]}
{"id": "C99", "title": "classifying never reads outside the table", "statement": "Asking for the class of a character (letter, digit, white space, ...) gives an answer and reads only elements the character table has. A value above the last code point is in no class.", "quantifier": "all values of a 32 bit character, not only code points; all 16 classes", "why_tests_cant": "There are 2^32 characters and the lookup goes through offsets stored in the table itself.", "anchors": ["parts/_share/char_set/isX.hpp:isalpha", "parts/_share/char_set/marcos/_defs.hpp:_UTRIE_INDEX_FROM_CP", "parts/_share/char_set/props_data.hpp:props_index"]}
{"id": "C100", "title": "classes are the ones of Unicode", "statement": "Decimal digits, hexadecimal digits, white space, blanks, control characters and ISO controls are exactly the characters Unicode 15 gives these categories. Noncharacters are not defined, surrogates are neither printable nor graphic.", "quantifier": "all characters", "why_tests_cant": "Exactness is a statement about every one of more than a million code points, members and non-members.", "anchors": ["parts/_share/char_set/isX.hpp:isdigit", "parts/_share/char_set/isX.hpp:isxdigit", "parts/_share/char_set/isX.hpp:isspace", "parts/_share/char_set/isX.hpp:isblank", "parts/_share/char_set/isX.hpp:iscntrl", "parts/_share/char_set/isX.hpp:isISOControl"]}
{"id": "C101", "title": "relations between classes", "statement": "A letter or digit is what isalnum accepts; cased letters are letters; letters, digits and punctuation are graphic and printable; blanks are white space; white space and control characters are not graphic; graphic characters are printable and control characters are not.", "quantifier": "all characters", "why_tests_cant": "The relations must hold for every character at once.", "anchors": ["parts/_share/char_set/isX.hpp:isalnum", "parts/_share/char_set/isX.hpp:isgraph", "parts/_share/char_set/isX.hpp:isprint", "parts/_share/char_set/isX.hpp:ispunct"]}
{"id": "C102", "title": "ASCII classes agree with the C library", "statement": "For the 128 ASCII characters each class has the members the class of the same name has in the C locale.", "quantifier": "all ASCII characters, all classes C has", "why_tests_cant": "A test per class checks samples; the claim is about every pair.", "anchors": ["parts/_share/char_set/isX.hpp:isspace", "parts/_share/char_set/isX.hpp:ispunct", "parts/_share/char_set/isX.hpp:isprint"]}
{"id": "C103", "title": "writing through a conversion", "statement": "Text written to a stream that converts to UTF-8, UTF-16 or UTF-32 arrives at the stream below as exactly its encoding, in order, and conversion back gives the text. A character that has no encoding ends the program with a message after everything before it has arrived. No buffer overflows.", "quantifier": "all texts of 32 bit characters, all three encodings, everything written before", "why_tests_cant": "The encoding has four lengths and every text mixes them; where the first bad character is matters.", "anchors": ["parts/header_file/files/elc/_files/stream/defs.hpp:code_cvted_text_orefstream", "parts/_share/char_set/convert.hpp:utf32_to_auto"]}
{"id": "C104", "title": "reading through a conversion", "statement": "Reading n characters from a stream that converts from UTF-8, UTF-16 or UTF-32 delivers the next n characters of the text, or all there are, and never writes beyond the buffer of the reader; the rest of the text stays readable. What is delivered is what was there.", "quantifier": "all texts, all n, all ways the stream below splits what it delivers", "why_tests_cant": "The stream is read in windows and a window can end anywhere in a character; only the combination of lengths decides what happens.", "anchors": ["parts/header_file/files/elc/_files/stream/defs.hpp:not_unreadable_code_cvted_text_irefstream", "parts/_share/char_set/convert.hpp:auto_to_utf32", "parts/header_file/files/elc/_files/base_stream/base_streams/_body.hpp:get"]}
{"id": "C105", "title": "reading strings splits a text into words", "statement": "Reading strings one after the other with >> gives the words of the text, that is the longest runs without white space, in order, and then empty strings. It always comes to an end.", "quantifier": "all texts, all numbers of reads, streams that do and do not say that they end", "why_tests_cant": "White space may be anywhere, in any number, at the start and at the end.", "anchors": ["parts/header_file/files/elc/_files/string/defs.hpp:operator>>", "parts/header_file/files/elc/_files/base_stream/base_streams/_body.hpp:peek", "parts/header_file/files/elc/_files/base_stream/base_streams/_body.hpp:null_text_stream"]}
{"id": "C106", "title": "getline reads line by line", "statement": "Each call of getline gives the next line of the text without its line end, which may be a line feed, a carriage return or both; no character of a line is lost.", "quantifier": "all texts, all sequences of calls, streams that wait for data or do not", "why_tests_cant": "Line ends of different lengths, empty lines and the end of the text interact.", "anchors": ["parts/header_file/files/elc/_files/string/defs.hpp:getline", "parts/header_file/files/elc/_files/base_stream/operators/_body.hpp:endline"]}
{"id": "C107", "title": "the echo of in", "statement": "Characters read from in are echoed once, when they are first read, with line ends as line feeds; characters given back and read again are not echoed again. Nothing else is echoed.", "quantifier": "all texts, all sequences of reads of any size and of characters given back, reads that get less than they ask for", "why_tests_cant": "The number of characters given back has to be tracked through every history.", "anchors": ["parts/header_file/files/elc/_files/stream/defs.hpp:in_impl_t"]}
{"id": "C108", "title": "views stay in their array", "statement": "Going through a view forwards or backwards, and its elements by index, give the elements of the part of the array it covers, in order. subview with any bounds, also reversed or too large ones, is a view inside the view with exactly the elements between the bounds.", "quantifier": "all arrays, all views in them, all pairs of size_t bounds", "why_tests_cant": "Bounds range over all of size_t and interact: each may be over the other, over the end or both.", "anchors": ["parts/header_file/files/elc/_files/base_defs/array_like.hpp:array_like_view_t"]}
{"id": "C109", "title": "substr of a string view", "statement": "Each of the six ways to ask for a part of a string view (position or pointer for the beginning; length, pointer or nothing for the end) gives the characters between the bounds.", "quantifier": "all views, all bounds", "why_tests_cant": "The bounds are arbitrary; an error only shows when the part is read and the position is not zero.", "anchors": ["parts/header_file/files/elc/_files/base_defs/string_view.hpp:substr"]}
{"id": "C110", "title": "starts_with and the length of zero-ended strings", "statement": "starts_with of a character, of a view and of a zero-ended string is true exactly if the string begins with it, and reads nothing outside the two strings. The length of a zero-ended string is the number of characters before its zero.", "quantifier": "all strings, all prefixes, any memory behind them", "why_tests_cant": "Reads outside are only visible if the memory around is chosen badly.", "anchors": ["parts/header_file/files/elc/_files/base_defs/string_view.hpp:starts_with", "parts/header_file/files/elc/_files/base_defs/array_like.hpp:get_length_of"]}
{"id": "C111", "title": "literals search like other strings", "statement": "Looking for a character in a literal, from the front or from the back, gives its first or last place; looking for any of the characters of a literal (or for any other) in a range gives what the same text that is no literal gives.", "quantifier": "all literals (with repeated characters, with characters above 255), all characters, all ranges", "why_tests_cant": "A table made for the literal replaces the search if it can be made; the answers must agree in every case.", "anchors": ["parts/header_file/files/elc/_files/base_defs/constexpr_str.hpp:constexpr_str_t", "parts/header_file/files/elc/_files/base_defs/constexpr_str.hpp:in_range", "parts/header_file/files/elc/_files/base_defs/constexpr_str.hpp:in_range_but_reverse", "parts/header_file/files/elc/_files/base_defs/constexpr_str.hpp:find_first_of"]}
{"id": "C112", "title": "square roots of fractions to any precision", "statement": "sqrt(v,ε) of a big fraction ends and gives a number at most ε from the square root of v, and not below it, whatever the first guess.", "quantifier": "all fractions v that are not negative, all positive ε, all positive guesses", "why_tests_cant": "There is no bound on the digits of v or of ε, and the number of steps depends on both.", "anchors": ["parts/header_file/files/elc/_files/base_defs/math.hpp:sqrt", "parts/header_file/files/elc/_files/base_defs/math.hpp:sqrt_to_new_ε", "parts/header_file/files/elc/_files/base_defs/math.hpp:sqrt_iteration"]}
{"id": "C113", "title": "sine and cosine of fractions to any precision", "statement": "sin(x,ε) and cos(x,ε) of big fractions end and give numbers at most ε from the sine and the cosine of x.", "quantifier": "all fractions x, all positive ε", "why_tests_cant": "The terms of the series first grow and then shrink; where they shrink depends on the argument, which is not reduced.", "anchors": ["parts/header_file/files/elc/_files/base_defs/math.hpp:sin", "parts/header_file/files/elc/_files/base_defs/math.hpp:cos"]}
{"id": "C114", "title": "exponential and logarithm of fractions", "statement": "exp(v) and log(a) of big fractions end, with a value near the exponential and the logarithm.", "quantifier": "all fractions v, all positive fractions a", "why_tests_cant": "That a call never ends cannot be seen by running it.", "anchors": ["parts/header_file/files/elc/_files/base_defs/math.hpp:exp", "parts/header_file/files/elc/_files/base_defs/math.hpp:log"]}
{"id": "C115", "title": "inverse trigonometric functions of fractions", "statement": "arctan(x,ε), arccos(x,ε), arcsin(x,ε) and arcsec(x,ε) end and give numbers at most ε from the functions of the same name.", "quantifier": "all fractions in the domain, all positive ε", "why_tests_cant": "The precision is arbitrary.", "anchors": ["parts/header_file/files/elc/_files/base_defs/math.hpp:arctan", "parts/header_file/files/elc/_files/base_defs/math.hpp:arccos", "parts/header_file/files/elc/_files/base_defs/math.hpp:arcsin", "parts/header_file/files/elc/_files/base_defs/math.hpp:arcsec"]}
{"id": "C116", "title": "π to any precision", "statement": "After any earlier calls, π_with_ε(ε) ends and gives a number at most ε from π; a precision once reached is kept.", "quantifier": "all histories of calls of the object that computes π, all positive ε", "why_tests_cant": "The object keeps its state between calls; the precision is arbitrary, and histories are unlimited.", "anchors": ["parts/header_file/files/elc/_files/base_defs/math.hpp:π_with_ε_impl_t", "parts/header_file/files/elc/_files/base_defs/math.hpp:do_base_iteration", "parts/header_file/files/elc/_files/base_defs/math.hpp:do_sqrt_iteration"]}
{"id": "C117", "title": "reversing signs, and rounding at compile time", "statement": "reverse_sign(x) is -x. At compile time trunc, ceil and floor of a native floating point number are the integer towards zero, the least integer not below and the greatest integer not above the number.", "quantifier": "all big fractions and integers; all native floating point numbers whose integer part fits 64 bits", "why_tests_cant": "Each number is rounded on its own; errors depend on the distance to the next integer.", "anchors": ["parts/header_file/files/elc/_files/base_defs/math.hpp:reverse_sign", "parts/header_file/files/elc/_files/base_defs/math.hpp:copy_as_negative", "parts/header_file/files/elc/_files/base_defs/math.hpp:trunc", "parts/header_file/files/elc/_files/base_defs/math.hpp:ceil", "parts/header_file/files/elc/_files/base_defs/math.hpp:floor"]}
{"id": "C118", "title": "a memory stream is a file", "statement": "A stream in memory that is written to, read and positioned inside what was written reads what a file with the same history reads, and holds the same bytes, however often its block grows and moves.", "quantifier": "all histories of writes, reads and movements that stay in the file, all addresses of the blocks, every growth factor that gives at least what is asked for", "why_tests_cant": "The block moves when it grows; histories are unbounded.", "anchors": ["parts/header_file/files/elc/_files/memory_stream/memory_stream.hpp:memory_stream"]}
{"id": "C119", "title": "positions of a memory stream", "statement": "Seeking from the beginning or the end goes to the given offset there; a position told earlier can be returned to; reading or writing at any position that was sought, and after close, stays inside the stream.", "quantifier": "all streams, all offsets, all earlier positions", "why_tests_cant": "Depends on where the allocator moved the block.", "anchors": ["parts/header_file/files/elc/_files/memory_stream/memory_stream.hpp:memory_stream"]}
{"id": "C120", "title": "text written is read back", "statement": "Integers of any types and bools that are written to a text stream with white space between them are read back with operator>> in the same order, whatever the variables held before; what follows stays in the stream.", "quantifier": "all sequences of values of all integer widths, signed or not, and bool, all white space between them, all usable numeral representations", "why_tests_cant": "All values of all widths, in all sequences.", "anchors": ["parts/header_file/files/elc/_files/_multi/arithmetic_text_io.hpp:operator>>", "parts/header_file/files/elc/_files/_multi/arithmetic_text_io.hpp:operator<<", "parts/header_file/files/elc/_files/numerical_representation/representations/bool.hpp:common_bool_representation_t"]}
{"id": "C121", "title": "text that is no bool", "statement": "Reading a bool from a word that is not the text of a bool leaves the variable as it was.", "quantifier": "all words", "why_tests_cant": "All words of any length.", "anchors": ["parts/header_file/files/elc/_files/_multi/arithmetic_text_io.hpp:operator>>"]}
{"id": "C122", "title": "text that is no number", "statement": "Reading a number from a stream at its end, from a word that is no number, or from a number that does not fit is noticed or leaves the variable as it was, and is never undefined.", "quantifier": "all texts, all integer types", "why_tests_cant": "All texts.", "anchors": ["parts/header_file/files/elc/_files/_multi/arithmetic_text_io.hpp:operator>>"]}
{"id": "C123", "title": "symbols are looked up from inside outwards", "statement": "A symbol has the value and type it has in the innermost name space around the program that declares it, whatever its value is; looking it up always ends.", "quantifier": "all heaps of name spaces, all places in them, all symbols", "why_tests_cant": "Name spaces are data of the program being run: any nesting, also circular.", "anchors": ["parts/header_file/files/elc/_files/namespace/defs.hpp:get_symbol", "parts/header_file/files/elc/_files/namespace/defs.hpp:get_symbol_namespace", "parts/header_file/files/elc/_files/namespace/defs.hpp:has_symbol"]}
{"id": "C124", "title": "entering and leaving name spaces", "statement": "Entering a name space and leaving it leads back to where the program was, and no such movement makes it lose its name space.", "quantifier": "all heaps of name spaces, all sequences of movements", "why_tests_cant": "Sequences are unbounded.", "anchors": ["parts/header_file/files/elc/_files/namespace/defs.hpp:inter_namespace", "parts/header_file/files/elc/_files/namespace/defs.hpp:leave_namespace"]}
{"id": "C125", "title": "assigned symbols have their value", "statement": "After a value is assigned to a symbol, looking the symbol up gives that value, and no other symbol has changed.", "quantifier": "all heaps of name spaces, all symbols and values", "why_tests_cant": "Depends on the whole heap and the value.", "anchors": ["parts/header_file/files/elc/_files/namespace/defs.hpp:get_symbol"]}
{"id": "C126", "title": "linked stacks are lists", "statement": "Whatever is done with any number of linked stacks (adding, finding, finding with moving to the front, removing, going through, clearing, copying, moving the top elsewhere, exchanging), they answer as lists do. References to items stay good until the item is removed; every cell is given back exactly once and none is lost.", "quantifier": "all histories over any number of stacks with any items and predicates", "why_tests_cant": "Pointer errors (lost tails, cells given back twice) need particular histories.", "anchors": ["parts/header_file/files/elc/_files/base/container/stacks/base_stack.hpp:base_stack_t", "parts/header_file/files/elc/_files/base/container/stacks/auto_stack.hpp:auto_stack_t"]}
{"id": "C127", "title": "a throwing constructor leaves nothing behind", "statement": "When a constructor of an element throws while an array is made or assigned, the old array is untouched, the elements made so far are destroyed and their memory is given back.", "quantifier": "all element types (which of their constructors throw), all arrays, all three ways to assign, every call at which the exception comes", "why_tests_cant": "Every moment of the exception, every size.", "anchors": ["parts/header_file/files/elc/_files/base/memory/get/defs.hpp:as_array", "parts/header_file/files/elc/_files/base/memory/get/defs.hpp:copy_get", "parts/header_file/files/elc/_files/base/container/array/defs.hpp:array_t"]}
{"id": "C128", "title": "growing an array happens or does not", "statement": "When a constructor throws while elements are added to an array (push_back, +=, insert, resize, forward_resize), the array has the elements it had before, and none is lost.", "quantifier": "all element types, all arrays, all ways to grow, every call at which the exception comes", "why_tests_cant": "Every moment of the exception, every size and position.", "anchors": ["parts/header_file/files/elc/_files/base/memory/get/defs.hpp:alloc_size_grow", "parts/header_file/files/elc/_files/base/memory/get/defs.hpp:alloc_size_grow_with_insert_uninitialized_data", "parts/header_file/files/elc/_files/base/container/array/defs.hpp:insert"]}
{"id": "C129", "title": "an array can be destroyed after an exception", "statement": "After an exception left any function of an array, destroying the array is defined.", "quantifier": "all element types, all arrays, all functions, every call at which the exception comes", "why_tests_cant": "Every moment of the exception, every size and position.", "anchors": ["parts/header_file/files/elc/_files/base/memory/get/defs.hpp:unget", "parts/header_file/files/elc/_files/base/container/array/defs.hpp:array_t", "parts/header_file/files/elc/_files/base_defs/memory/lifetime/defs.hpp:destruct"]}
{"id": "C130", "title": "exceptions of elements reach the caller", "statement": "An exception thrown by a constructor of an element in a function of an array reaches the caller, who can handle it.", "quantifier": "all element types, all arrays, all functions, every call at which the exception comes", "why_tests_cant": "Every combination of constructors that throw with every function.", "anchors": ["parts/header_file/files/elc/_files/base/container/array/defs.hpp:array_t", "parts/header_file/files/elc/_files/base/container/array/defs.hpp:insert", "parts/header_file/files/elc/_files/base/memory/get/defs.hpp:alloc_size_grow_with_insert_uninitialized_data"]}
{"id": "C131", "title": "jumps continue at their target", "statement": "A jump continues at the element it names: the lists that the target is not an element of are left, and nothing is evaluated a second time because of them.", "quantifier": "all programs, all nestings of code lists and functions, all jumps", "why_tests_cant": "Programs, nestings and the number of rounds are unbounded.", "anchors": ["parts/header_file/files/elc/_files/core/nodes/code_list.hpp:be_eval", "parts/header_file/files/elc/_files/core/runtime_exception/core_runtime_internal_helper.hpp:goto_t"]}
{"id": "C132", "title": "a return ends its list with the answer so far", "statement": "A return ends the code list it is in; the list answers with the answer of its element evaluated last, or with void when there is none.", "quantifier": "all programs, all nestings of code lists and functions, everything evaluated before", "why_tests_cant": "Programs and histories are unbounded.", "anchors": ["parts/header_file/files/elc/_files/core/nodes/code_list.hpp:be_eval", "parts/header_file/files/elc/_files/core/runtime_exception/core_runtime_internal_helper.hpp:return_t"]}
{"id": "C133", "title": "only errors leave a code list", "statement": "No jump and no return gets out of a code list; any other exception reaches the caller of the outermost evaluation, no later element is evaluated, and what was done before stays done.", "quantifier": "all programs, all states, all ways for an evaluation to end", "why_tests_cant": "Programs and nestings are unbounded.", "anchors": ["parts/header_file/files/elc/_files/core/nodes/code_list.hpp:be_eval", "parts/header_file/files/elc/_files/core/nodes/code_list.hpp:eval"]}
{"id": "C134", "title": "expressions call their head", "statement": "Evaluating an expression calls the function that its head stands for with the arguments as they are written; everything that is no expression and no code list stands for itself.", "quantifier": "all programs, all expressions, all states", "why_tests_cant": "Expressions are unbounded.", "anchors": ["parts/header_file/files/elc/_files/core/nodes/expr.hpp:be_eval", "parts/header_file/files/elc/_files/core/nodes/base_binary_function_node.hpp:be_call", "parts/header_file/files/elc/_files/core/base_def/node_like_using_value_func_defs.hpp:be_eval"]}
{"id": "C135", "title": "code lists end", "statement": "Evaluating a code list of finitely many elements that all answer evaluates each of them once, in order, and ends.", "quantifier": "all programs, all lists, all states", "why_tests_cant": "Lists are unbounded; not ending cannot be observed.", "anchors": ["parts/header_file/files/elc/_files/core/nodes/code_list.hpp:be_eval", "parts/header_file/files/elc/_files/core/nodes/cons.hpp:cdr_of", "parts/header_file/files/elc/_files/core/nodes/binary_node_t.hpp:arec"]}
{"id": "C136", "title": "new arrays are aligned and apart", "statement": "A new array lies at an address with the alignment of its type, has room for all its elements, has no byte in common with any array that the program has, and no byte of those changes.", "quantifier": "all types, all numbers of elements, all histories of allocating, writing, resizing and giving back, everything the C library may answer", "why_tests_cant": "Histories, sizes and the answers of the C library are unbounded.", "anchors": ["parts/header_file/files/elc/_files/base/memory/alloc/defs.hpp:alloc", "parts/header_file/files/elc/_files/base/memory/alloc/default_method/defs.hpp:base_alloc", "parts/_share/APIs/alloc.hpp:aligned_alloc", "parts/_share/APIs/alloc/default_method/overhead.hpp:overhead_get_offset_value"]}
{"id": "C137", "title": "arrays know their length", "statement": "get_size_of_alloc of an array tells the number of elements that were asked for last, and copy_alloc allocates that many.", "quantifier": "all arrays in all histories", "why_tests_cant": "Histories are unbounded; writes next to the kept size could change it.", "anchors": ["parts/header_file/files/elc/_files/base/memory/alloc/defs.hpp:get_size_of_alloc", "parts/header_file/files/elc/_files/base/memory/alloc/defs.hpp:copy_alloc", "parts/_share/APIs/alloc.hpp:get_size_of_alloc", "parts/_share/APIs/alloc/default_method/overhead.hpp:get_overhead"]}
{"id": "C138", "title": "resizing keeps the elements", "statement": "realloc keeps the elements as far as the new size goes, the alignment, and all other arrays; when there is no memory the array stays as it was; shrinking leaves the array where it is.", "quantifier": "all arrays in all histories, all new sizes, everything the C library may answer", "why_tests_cant": "Histories, sizes and the answers of the C library are unbounded.", "anchors": ["parts/header_file/files/elc/_files/base/memory/alloc/defs.hpp:realloc", "parts/header_file/files/elc/_files/base/memory/alloc/default_method/defs.hpp:base_realloc", "parts/_share/APIs/alloc.hpp:realloc"]}
{"id": "C139", "title": "every block is given back", "statement": "Every array can be given back in every history, without any effect on the others; when all arrays were given back, the C library has got back every block.", "quantifier": "all histories", "why_tests_cant": "Histories are unbounded.", "anchors": ["parts/header_file/files/elc/_files/base/memory/alloc/defs.hpp:free", "parts/header_file/files/elc/_files/base/memory/alloc/default_method/defs.hpp:base_free", "parts/_share/APIs/alloc.hpp:free"]}
{"id": "C140", "title": "the counters of memory are right", "statement": "The counters tell how many bytes are in arrays now, how many were at most, and how many arrays and bytes were given and given back.", "quantifier": "all histories", "why_tests_cant": "Histories are unbounded.", "anchors": ["parts/_share/APIs/alloc.hpp:update_memory_using", "parts/_share/APIs/alloc.hpp:count_info"]}
{"id": "C141", "title": "reading a file", "statement": "Reading from a stream onto a file delivers the bytes of the file in order, in whatever portions the system delivers them; data put back comes first; a read tells how many bytes it delivered; when the system reports an error nothing is delivered.", "quantifier": "all files, all histories of reads and of data put back, all answers of the system", "why_tests_cant": "Histories and the portions and errors of the system are unbounded.", "anchors": ["parts/_share/APIs/streams.hpp:basic_read_impl", "parts/header_file/files/elc/_files/base_stream/unreadable_wrap/_body.hpp:unreadable_wrap", "parts/header_file/files/elc/_files/base_stream/base_streams/_body.hpp:peek"]}
{"id": "C142", "title": "positions in a file", "statement": "seek goes to the offset from the beginning, the place or the end and answers with the place; a position told can be returned to, and reading goes on there.", "quantifier": "all files, all positions and offsets, all streams", "why_tests_cant": "Files, positions and histories are unbounded.", "anchors": ["parts/_share/APIs/streams.hpp:basic_seek_impl", "parts/_share/APIs/streams.hpp:basic_tell_impl", "parts/header_file/files/elc/_files/stream/base_fstream/_body.hpp:seek_to"]}
{"id": "C143", "title": "writing to a file", "statement": "Everything given to write is in the file afterwards, at the place of the stream; the rest of the file is unchanged.", "quantifier": "all files, all places, all data, all answers of the system", "why_tests_cant": "Data and the portions and errors of the system are unbounded.", "anchors": ["parts/_share/APIs/streams.hpp:basic_write_impl", "parts/header_file/files/elc/_files/stream/base_fstream/_body.hpp:write"]}
{"id": "C144", "title": "a stream closes its own file, once", "statement": "A stream works on the file it was opened for and closes it once; no stream has any effect on the place of another one or closes its file; when all streams have ended no file is open.", "quantifier": "all programs with any number of streams, all handles the system may give", "why_tests_cant": "Histories and the handles given are unbounded.", "anchors": ["parts/_share/APIs/streams.hpp:basic_close_impl", "parts/header_file/files/elc/_files/stream/base_fstream/_body.hpp:base_fstream", "parts/header_file/files/elc/_files/stream/base_fstream/_body.hpp:close"]}
{"id": "C145", "title": "text in the encoding of the system", "statement": "Text converted to the encoding of the system is this text in this encoding, for every text of Unicode; texts can be converted in pieces; different texts give different bytes; converting back gives the text.", "quantifier": "all texts, all encodings a locale may have", "why_tests_cant": "Texts and encodings are unbounded.", "anchors": ["parts/_share/APIs/str_code_convert.hpp:to_char_str", "parts/_share/APIs/str_code_convert.hpp:to_char_t_str"]}
{"id": "C146", "title": "bytes of the system as text", "statement": "Bytes from the system are converted to the text they encode; the program dies if they encode none; no memory but the bytes is read and the conversion always ends.", "quantifier": "all sequences of bytes, all encodings, all contents of the memory behind the bytes", "why_tests_cant": "Byte sequences and memory contents are unbounded.", "anchors": ["parts/_share/APIs/str_code_convert.hpp:to_char_t_str"]}
{"id": "C147", "title": "names given to the system", "statement": "A file, library or symbol name is given to the system as it is, so that different names ask for different things.", "quantifier": "all names, all encodings, all answers of the system", "why_tests_cant": "Names are unbounded.", "anchors": ["parts/_share/paths.hpp:file_exists", "parts/_share/APIs/library_load.hpp:load_library", "parts/_share/APIs/library_load.hpp:get_symbol"]}
{"id": "C148", "title": "loops over arrays and strings", "statement": "A loop from begin() to end() over an array or a string sees every element once and in order, one from rbegin() to rend() once and in reverse order, also when there is none; what the loop assigns is in the container afterwards.", "quantifier": "all arrays and strings of all lengths, both directions, all assignments in the body", "why_tests_cant": "Lengths are unbounded.", "anchors": ["parts/header_file/files/elc/_files/base_defs/iterator.hpp:base_iterator_t", "parts/header_file/files/elc/_files/base_defs/iterator.hpp:reverse_base_t", "parts/header_file/files/elc/_files/base/container/array/defs.hpp:rbegin", "parts/header_file/files/elc/_files/string/defs.hpp:get_reverse_iterator_at"]}
{"id": "C149", "title": "moving iterators", "statement": "it+n is the iterator n places on and it-n n places back, in the direction of the iterator; ++ and -- are steps of one; steps add up and can be undone; the element at begin()+n is the element n, that at rbegin()+n the element n from the end.", "quantifier": "all kinds of iterators, all positions, all numbers", "why_tests_cant": "Positions and numbers are unbounded.", "anchors": ["parts/header_file/files/elc/_files/base_defs/iterator.hpp:base_iterator_t", "parts/header_file/files/elc/_files/string/defs.hpp:iterator_base_t"]}
{"id": "C150", "title": "loops over bit sets", "statement": "A loop over a bit set sees each of its bits once and in order and ends.", "quantifier": "all bit sets of all sizes", "why_tests_cant": "Sizes and contents are unbounded.", "anchors": ["parts/header_file/files/elc/_files/base_defs/bitset.hpp:iterator_base_t", "parts/header_file/files/elc/_files/base_defs/bitset.hpp:bitset"]}
{"id": "C151", "title": "counted loops", "statement": "for times(n) carries out its body exactly n times, with 0, 1, ..., n-1, whatever the body does, also inside another such loop; not at all if n is not positive.", "quantifier": "all types of integers, all numbers, all bodies", "why_tests_cant": "Numbers and bodies are unbounded.", "anchors": ["parts/header_file/files/elc/_files/base_defs/other.hpp:times_provider_t", "parts/_share/_defs.hpp:times"]}
{"id": "C152", "title": "safe conversion of unsigned big integers", "statement": "is_safe_convert_to<T>() of an unsigned big integer is true exactly when T has that number; convert_to<T>() gives the number if it is true, and otherwise what the language makes of the number in T.", "quantifier": "all unsigned big integers, all native integer types, all widths of digits", "why_tests_cant": "Numbers are unbounded.", "anchors": ["parts/header_file/files/elc/_files/bignum/bignum/ubigint.hpp:is_safe_convert_to", "parts/header_file/files/elc/_files/bignum/bignum/ubigint.hpp:convert_to"]}
{"id": "C153", "title": "safe conversion of signed big integers", "statement": "is_safe_convert_to<T>() of a signed big integer is true exactly when T has that number; convert_to<T>() gives the number if it is true, and otherwise what the language makes of the number in T.", "quantifier": "all signed big integers, all native integer types, all widths of digits", "why_tests_cant": "Numbers are unbounded.", "anchors": ["parts/header_file/files/elc/_files/bignum/bignum/bigint.hpp:is_safe_convert_to", "parts/header_file/files/elc/_files/bignum/bignum/bigint.hpp:convert_to"]}
{"id": "C154", "title": "safe conversion of big fractions", "statement": "is_safe_convert_to<T>() of a big fraction is true exactly when it is a whole number that T has; convert_to<T>() drops what is after the point and gives that number if T has it.", "quantifier": "all signed and unsigned big fractions, all native integer types", "why_tests_cant": "Numerators and denominators are unbounded.", "anchors": ["parts/header_file/files/elc/_files/bignum/bignum/ubigfloat.hpp:is_safe_convert_to", "parts/header_file/files/elc/_files/bignum/bignum/bigfloat.hpp:is_safe_convert_to", "parts/header_file/files/elc/_files/bignum/bignum/bigfloat.hpp:convert_to"]}
{"id": "C155", "title": "native integers divided by big ones", "statement": "a/b and a%b of a native integer a by a big integer b other than zero give the quotient and the remainder of the language (rounded towards zero), as numbers of the type of a.", "quantifier": "all native integer types, all numbers of them, all signed and unsigned big integers but zero", "why_tests_cant": "The divisor is unbounded; the failures are at one number of each type or for one sign of the divisor.", "anchors": ["parts/header_file/files/elc/_files/bignum/bignum/ubigint.hpp:operator/", "parts/header_file/files/elc/_files/bignum/bignum/ubigint.hpp:operator%", "parts/header_file/files/elc/_files/bignum/bignum/bigint.hpp:operator/", "parts/header_file/files/elc/_files/bignum/bignum/bigint.hpp:operator%", "parts/header_file/files/elc/_files/base_defs/math.hpp:abs", "parts/header_file/files/elc/_files/base_defs/math.hpp:copy_as_negative"]}
{"id": "C156", "title": "powers with signed exponents", "statement": "pow(x,e) of a big integer or a big fraction with a signed exponent gives x to the power e, exactly; with a negative exponent the inverse of the power.", "quantifier": "all big integers and fractions, with and without sign, all exponents", "why_tests_cant": "Bases and exponents are unbounded.", "anchors": ["parts/header_file/files/elc/_files/bignum/bignum/ubigfloat.hpp:pow", "parts/header_file/files/elc/_files/bignum/bignum/bigfloat.hpp:pow", "parts/header_file/files/elc/_files/base_defs/math.hpp:pow"]}
{"id": "C157", "title": "small operations on native integers", "statement": "divmod gives quotient and remainder, ceil_div the quotient rounded up, sub the difference with its sign, is_odd tells odd numbers; for all numbers of the type.", "quantifier": "all native integer types and all pairs of their numbers", "why_tests_cant": "64 bit operands have 2^128 pairs; the failures are at signs and at halves of the type.", "anchors": ["parts/header_file/files/elc/_files/base_defs/math.hpp:divmod", "parts/header_file/files/elc/_files/base_defs/math.hpp:ceil_div", "parts/header_file/files/elc/_files/base_defs/math.hpp:sub", "parts/header_file/files/elc/_files/base_defs/math.hpp:is_odd"]}
{"id": "C158", "title": "random numbers between 0 and 1", "statement": "The exclusive draw of a floating point number is at least 0 and below 1; the inclusive draw is at least 0 and at most 1 and it returns. Each is a finite number.", "quantifier": "all floating point types, all draws of the generator and all sequences of draws", "why_tests_cant": "There are 2^32 to 2^128 draws; the failing ones are a handful at the top of the range.", "anchors": ["parts/header_file/files/elc/_files/random/defs.hpp:between_0_and_1_exclusive", "parts/header_file/files/elc/_files/random/defs.hpp:between_0_and_1_inclusive"]}
{"id": "C159", "title": "random floating point numbers between two bounds", "statement": "between(a,b) of floating point numbers gives a finite number that is at least the lower and at most the higher bound, in either order of the bounds; the exclusive form gives one below the higher bound.", "quantifier": "all floating point types, all pairs of finite bounds, all draws", "why_tests_cant": "Pairs of bounds and draws together have 2^192 cases for double; failures depend on rounding.", "anchors": ["parts/header_file/files/elc/_files/random/defs.hpp:between", "parts/header_file/files/elc/_files/random/defs.hpp:exclusive", "parts/header_file/files/elc/_files/random/defs.hpp:inclusive"]}
{"id": "C160", "title": "characters at fractional positions", "statement": "s[x] with a floating point number x that is not outside the string gives the value on the straight line between the characters at the sides of x; at a whole position it is the character there.", "quantifier": "all strings, all positions, all roundings", "why_tests_cant": "Strings and positions are unbounded; failures are at the last character and for high characters only.", "anchors": ["parts/header_file/files/elc/_files/string/defs.hpp:floating_arec_t_impl", "parts/header_file/files/elc/_files/base_defs/math.hpp:linear_interpolation"]}
{"id": "C161", "title": "assigning at fractional positions", "statement": "After s[x]=a, reading s[x] gives a (up to the rounding to characters); at a whole position only that character changes, and no character away from x ever does.", "quantifier": "all strings, positions and values", "why_tests_cant": "Unbounded; whether an assignment is defined depends on the difference of two neighbours.", "anchors": ["parts/header_file/files/elc/_files/string/defs.hpp:floating_arec_t_impl", "parts/header_file/files/elc/_files/base_defs/math.hpp:get_reverse_result"]}
{"id": "C162", "title": "every NaN survives its text", "statement": "to_string of a NaN followed by from_string_get in the same representation gives a NaN with the same bytes: sign, payload and kind.", "quantifier": "all NaNs of all native floating point types, all representations of numbers", "why_tests_cant": "A double has 2^53 NaNs, and the representation is a parameter; one of the built-in ones fails.", "anchors": ["parts/header_file/files/elc/_files/numerical_representation/to_string/_body.hpp:to_string_NaN_handle", "parts/header_file/files/elc/_files/numerical_representation/to_string/_body.hpp:from_string_get_unsigneded"]}
{"id": "C163", "title": "infinities survive their text", "statement": "to_string of an infinity followed by from_string_get gives the same infinity, in every representation.", "quantifier": "all floating point types and representations", "why_tests_cant": "The representation, with its words and signs, is any.", "anchors": ["parts/header_file/files/elc/_files/numerical_representation/to_string/_body.hpp:to_string_Inf_handle", "parts/header_file/files/elc/_files/numerical_representation/to_string/_body.hpp:from_string_get"]}
{"id": "C164", "title": "texts that begin with NaN", "statement": "from_string_get of a text that begins with the word for NaN gives a NaN if the text is one of a NaN, and reports an error otherwise; it is never undefined.", "quantifier": "all texts", "why_tests_cant": "Texts are unbounded; failures depend on the number of fields in them.", "anchors": ["parts/header_file/files/elc/_files/numerical_representation/to_string/_body.hpp:from_string_get_unsigneded", "parts/header_file/files/elc/_files/numerical_representation/to_string/_body.hpp:convert_state_t"]}
{"id": "C165", "title": "a big integer is printed as its numeral by the real arithmetic", "statement": "to_string of a big integer gives the usual text of its value in the chosen representation, when computed with the library's own multiplication and division, in release and debug builds.", "quantifier": "all big integers, all representations, both digit widths", "why_tests_cant": "The recursion, its split points and the division algorithm depend on the number of digits; wrong texts start at particular sizes and particular digits only.", "anchors": ["parts/header_file/files/elc/_files/numerical_representation/to_string/_body.hpp:to_string_base", "parts/header_file/files/elc/_files/bignum/bignum/ubigint.hpp:fast_divmod_base", "parts/header_file/files/elc/_files/bignum/bignum/ubigint.hpp:fast_muti_base"]}
{"id": "C166", "title": "a text of digits is read as its big integer by the real arithmetic", "statement": "from_string_get of a text of digits gives the big integer it denotes, and reports an error exactly if a character is not a digit, when computed with the library's own multiplication and addition.", "quantifier": "all texts, all representations, both digit widths", "why_tests_cant": "Texts are unbounded; the multiplication fails only for particular long operands.", "anchors": ["parts/header_file/files/elc/_files/numerical_representation/to_string/_body.hpp:from_string_get_unsigneded", "parts/header_file/files/elc/_files/bignum/bignum/ubigint.hpp:fast_muti_base"]}
{"id": "C167", "title": "names of types are values", "statement": "Names of types and functions can be made, copied, moved and destroyed in any order: no memory is used after it was freed or freed twice, each object keeps its own text, and none is leaked.", "quantifier": "all histories of name objects", "why_tests_cant": "Ownership errors depend on the order of copies, moves and destructions.", "anchors": ["parts/header_file/files/elc/_files/base_defs/type_name.hpp:type_name_t", "parts/header_file/files/elc/_files/base_defs/type_name.hpp:copy_demangle"]}
{"id": "C168", "title": "the name of a type is its name", "statement": "The name object of a type has exactly the characters of the demangled name.", "quantifier": "all names the compiler gives", "why_tests_cant": "The size of the buffer is decided by the demangler and differs from name to name.", "anchors": ["parts/header_file/files/elc/_files/base_defs/type_name.hpp:demangle"]}
{"id": "C169", "title": "the name of a function", "statement": "get_function_name gives the name of every function, on Linux and Windows.", "quantifier": "all functions, known to the dynamic linker or not", "why_tests_cant": "Every symbol a program may contain, of every length, stripped or not.", "anchors": ["parts/_share/APIs/function_name.hpp:get_function_name", "parts/_share/APIs/function_name.hpp:demangle_name"]}
{"id": "C170", "title": "an allocation is noted with its place", "statement": "With allocation locations recorded, each allocation is noted with file and line of the outermost library operation it happens in.", "quantifier": "all histories of nested operations and allocations", "why_tests_cant": "The place is cached in static variables, so that it depends on the whole history.", "anchors": ["parts/_share/APIs/alloc/debug_info/source_location_guard.hpp:source_location_guard", "parts/_share/APIs/alloc/debug_info/source_location_guard.hpp:source_location_info_t"]}
{"id": "C171", "title": "the noted place stays readable", "statement": "The debug library can report the place of a block as long as the block exists.", "quantifier": "all histories of operations after an allocation", "why_tests_cant": "Whether the name of the file is still there depends on all later allocations.", "anchors": ["parts/_share/APIs/alloc/debug_info/source_location_guard.hpp:source_location_info_t", "parts/_share/APIs/alloc.hpp:aligned_alloc"]}
{"id": "C172", "title": "a library is loaded while somebody holds it", "statement": "A dynamic library stays open as long as a handle of it or a function taken from it exists, and is closed once for each time it was opened, when the last of them is gone; this holds for libraries that cannot be loaded too.", "quantifier": "all histories of loading, copying, taking functions, calling and dropping", "why_tests_cant": "Handles are counted through functions and copies; early closing shows only when code of a closed library is called.", "anchors": ["parts/header_file/files/elc/_files/lib_loader/lib_loader.hpp:library_info_t", "parts/header_file/files/elc/_files/lib_loader/lib_loader.hpp:symbol_t", "parts/_share/APIs/library_load.hpp:base_free_library"]}
{"id": "C173", "title": "a symbol is found or reported missing", "statement": "Taking a symbol of a library as a function gives the function of that name in that library, or a null function if the library has none or was not loaded.", "quantifier": "all libraries, symbols and histories", "why_tests_cant": "Depends on what each library exports and on what the program itself exports.", "anchors": ["parts/header_file/files/elc/_files/lib_loader/lib_loader.hpp:get_symbol_as_function", "parts/header_file/files/elc/_files/lib_loader/lib_loader.hpp:get_symbol_as", "parts/header_file/files/elc/_files/package_symbol_loader/package_symbol_loader.hpp:package_symbol_loader_t"]}
{"id": "C174", "title": "the load list has what a package needs", "statement": "get_package_load_list gives a list that meets all needs of the package: each required package in a compatible version, and one alternative of every choice.", "quantifier": "all trees of needs, all sets of packages", "why_tests_cant": "Needs are unbounded trees; which alternative is taken depends on the packages of the system and on chance.", "anchors": ["parts/header_file/draft/package_manager/defs.hpp:get_package_load_list", "parts/header_file/draft/package_manager/defs.hpp:pick_one_package_relay_info_t", "parts/header_file/draft/package_manager/defs.hpp:add_package"]}
{"id": "C175", "title": "the load list has each package once", "statement": "The list has no package twice, only packages that can be found and that are needed, and what is needed first comes first.", "quantifier": "all trees of needs, all sets of packages", "why_tests_cant": "The lists of alternatives are merged; duplicates appear for particular overlaps only.", "anchors": ["parts/header_file/draft/package_manager/defs.hpp:already_in_list", "parts/header_file/draft/package_manager/defs.hpp:add_list"]}
{"id": "C176", "title": "a failure means the needs cannot be met", "statement": "get_package_load_list throws only if the packages that can be found do not meet the needs.", "quantifier": "all trees of needs, all sets of packages", "why_tests_cant": "Exceptions pass through nested choices.", "anchors": ["parts/header_file/draft/package_manager/defs.hpp:pick_one_package_relay_info_t", "parts/header_file/draft/package_manager/defs.hpp:package_not_found"]}
{"id": "C177", "title": "a choice takes the best alternative", "statement": "A choice takes an alternative with a shortest list, among these one with the most packages installed.", "quantifier": "all choices, all sets of packages", "why_tests_cant": "The selection erases from a list it indexes; whether it goes wrong depends on the order of the alternatives.", "anchors": ["parts/header_file/draft/package_manager/defs.hpp:pick_one_package_relay_info_t"]}
{"id": "C178", "title": "the counters tell how much memory is used", "statement": "With ELC_TEST_COUNT_MEMORY_ALLOC the counters tell, after every history of allocating, resizing, freeing and clearing, how many bytes are in use, how many were at most, and what was allocated and freed.", "quantifier": "all histories, with the system refusing any request", "why_tests_cant": "The counters are size_t and wrap; resizing adds a difference that may be negative.", "anchors": ["parts/_share/APIs/alloc.hpp:count_info", "parts/_share/APIs/alloc.hpp:update_memory_using", "parts/_share/APIs/alloc.hpp:realloc", "parts/_share/APIs/alloc.hpp:free"]}
{"id": "C179", "title": "signed big integers compute with integers, digit by digit", "statement": "Comparing, negating, adding, subtracting, multiplying, dividing, shifting and stepping stored signed big integers delivers the stored form of the exact integer, for every number of digits.", "quantifier": "all pairs of stored integers, of all sizes and signs; all shift counts", "why_tests_cant": "The sign handling sits on digit loops with several algorithms by size; tests reach few combinations of signs, sizes and borrows.", "anchors": ["parts/header_file/files/elc/_files/bignum/bignum/bigint.hpp:operator-", "parts/header_file/files/elc/_files/bignum/bignum/bigint.hpp:operator+=", "parts/header_file/files/elc/_files/bignum/bignum/bigint.hpp:operator/", "parts/header_file/files/elc/_files/bignum/bignum/bigint.hpp:operator%", "parts/header_file/files/elc/_files/bignum/bignum/bigint.hpp:operator>>", "parts/header_file/files/elc/_files/bignum/bignum/bigint.hpp:operator++"]}
{"id": "C180", "title": "fractions compute with rationals, digit by digit", "statement": "Adding, subtracting, multiplying, dividing and comparing stored fractions, signed or not, delivers the stored form of the exact rational.", "quantifier": "all pairs of stored fractions with non-zero denominators, of all sizes and signs", "why_tests_cant": "Every operation is two or three products of numerators and denominators, which change algorithm at 64 digits.", "anchors": ["parts/header_file/files/elc/_files/bignum/bignum/ubigfloat.hpp:operator+", "parts/header_file/files/elc/_files/bignum/bignum/ubigfloat.hpp:operator-", "parts/header_file/files/elc/_files/bignum/bignum/ubigfloat.hpp:operator<=>", "parts/header_file/files/elc/_files/bignum/bignum/bigfloat.hpp:operator+", "parts/header_file/files/elc/_files/bignum/bignum/bigfloat.hpp:operator-"]}
{"id": "C181", "title": "a simplified fraction is the same fraction in lowest terms", "statement": "gcd delivers the greatest common divisor of two stored numbers, and simplify() leaves the same rational with coprime numerator and denominator.", "quantifier": "all pairs of stored numbers; all stored fractions", "why_tests_cant": "It depends on the number of rounds of a loop on digit arrays and on the exactness of two divisions.", "anchors": ["parts/header_file/files/elc/_files/base_defs/math.hpp:binary_gcd", "parts/header_file/files/elc/_files/base_defs/math.hpp:gcd", "parts/header_file/files/elc/_files/bignum/bignum/ubigfloat.hpp:simplify", "parts/header_file/files/elc/_files/bignum/bignum/bigfloat.hpp:simplify"]}
{"id": "C182", "title": "trunc and split give the integer part", "statement": "trunc() delivers the integer part of a stored fraction and split() the integer part and a fraction below one that add up to it.", "quantifier": "all stored fractions", "why_tests_cant": "Wrong quotients appear only for certain low digits of the denominator.", "anchors": ["parts/header_file/files/elc/_files/bignum/bignum/ubigfloat.hpp:trunc", "parts/header_file/files/elc/_files/bignum/bignum/ubigfloat.hpp:split"]}
{"id": "C183", "title": "searching a string for a set of characters does not depend on how it is stored", "statement": "find_first_of, find_first_not_of, find_last_of and find_last_not_of give the position of the first or last character of the string that is, or is not, among the given ones, or npos if there is none, whatever the stored form of either string.", "quantifier": "all pairs of strings in all stored forms, all character types of fewer than 64 bits", "why_tests_cant": "The result must agree over an unbounded tree of stored forms and for characters on both sides of the table limit of 256.", "anchors": ["parts/header_file/files/elc/_files/string/defs.hpp:find_first_of", "parts/header_file/files/elc/_files/string/defs.hpp:find_first_not_of", "parts/header_file/files/elc/_files/string/defs.hpp:find_last_of", "parts/header_file/files/elc/_files/string/defs.hpp:find_last_not_of", "parts/header_file/files/elc/_files/base_defs/range.hpp:find_last_of_bitmark"]}
{"id": "C184", "title": "compile-time tables of factors are full and right", "statement": "A compile-time table of prime factors has exactly as many places as it is given factors, every place is written, and it holds the prime factors of the number in ascending order; the table without repetition holds each prime divisor once.", "quantifier": "all numbers of all unsigned types", "why_tests_cant": "Each number is its own type; the size is computed by one loop and the contents by another, which must agree for every number.", "anchors": ["parts/header_file/files/elc/_files/base_defs/math.hpp:prime_factorization_table_t", "parts/header_file/files/elc/_files/base_defs/math.hpp:unique_prime_factorization_table_t"]}
{"id": "C185", "title": "the quick square root is near the root", "statement": "The quick square root of a finite number is a finite number within a few percent of its square root.", "quantifier": "all finite numbers of the native floating point types that are not negative", "why_tests_cant": "It works on the bytes of the number; there are 2^63 doubles and 2^127 quadruple numbers.", "anchors": ["parts/header_file/files/elc/_files/base_defs/math.hpp:quick_sqrt"]}
{"id": "C186", "title": "square roots end and are accurate", "statement": "Taking the square root of a finite number ends, at run time and at compile time, with a number near the root; where the type can hold the root exactly it is the result.", "quantifier": "all finite numbers of the native floating point types that are not negative", "why_tests_cant": "The loop ends when two results are near each other; nothing but a proof for every number shows that it does, and how far the result is off.", "anchors": ["parts/header_file/files/elc/_files/base_defs/math.hpp:sqrt", "parts/header_file/files/elc/_files/base_defs/math.hpp:sqrt_to_new_ε", "parts/header_file/files/elc/_files/base_defs/math.hpp:sqrt_iteration", "parts/header_file/files/elc/_files/base_defs/math.hpp:quick_sqrt"]}
{"id": "C187", "title": "square roots of integers serve the tests for primes", "statement": "The integer part of the square root of an integer, taken through double, is the integer square root, so that trial division up to it decides primality.", "quantifier": "all unsigned integers of 64 bits", "why_tests_cant": "A root that is too small by one for a single square of a prime makes a composite number look prime; there are 2^64 numbers.", "anchors": ["parts/header_file/files/elc/_files/base_defs/math.hpp:sqrt", "parts/header_file/files/elc/_files/base_defs/math.hpp:is_prime_num", "parts/header_file/files/elc/_files/base_defs/math.hpp:is_prime_num_no_pre_check"]}
{"id": "C188", "title": "the quick inverse root is near the inverse root", "statement": "The quick inverse square root of a positive finite number is a finite number within a few percent of the inverse of its square root.", "quantifier": "all positive finite numbers of the native floating point types", "why_tests_cant": "It subtracts the bytes of the number from a magic number; there are 2^63 doubles and 2^127 quadruple numbers.", "anchors": ["parts/header_file/files/elc/_files/base_defs/math.hpp:quick_invsqrt", "parts/_share/basic_environment/float_info.hpp:quick_invsqrt_magic_number"]}
{"id": "C189", "title": "inverse square roots end and are accurate", "statement": "Taking the inverse square root of a positive finite number, given the change at which to stop, ends with a finite number near the inverse of the root.", "quantifier": "all positive finite numbers of the native floating point types, all positive changes at which to stop", "why_tests_cant": "The loop stops when two results are near each other; it may go to and fro between two neighbouring numbers, which a few runs do not show.", "anchors": ["parts/header_file/files/elc/_files/base_defs/math.hpp:invsqrt", "parts/header_file/files/elc/_files/base_defs/math.hpp:invsqrt_to_new_ε", "parts/header_file/files/elc/_files/base_defs/math.hpp:invsqrt_iteration"]}
{"id": "C190", "title": "rounding to whole numbers at compile time", "statement": "At compile time truncation, ceiling and floor of a native floating point number are the whole numbers of that name, as they are at run time.", "quantifier": "all finite numbers of the native floating point types, with sign, within the range of the 64-bit integers", "why_tests_cant": "Compile-time code goes through casts to integers and comparisons with a tolerance; which numbers it gets wrong is seen only by looking at all of them.", "anchors": ["parts/header_file/files/elc/_files/base_defs/math.hpp:trunc", "parts/header_file/files/elc/_files/base_defs/math.hpp:ceil", "parts/header_file/files/elc/_files/base_defs/math.hpp:floor", "parts/header_file/files/elc/_files/base_defs/math.hpp:is_close"]}
{"id": "C191", "title": "digits of pi gained by each step", "statement": "After k steps of the object that computes pi its result is right to the number of decimal digits that the object counts, fourteen for each step.", "quantifier": "all numbers of steps", "why_tests_cant": "A test compares a few steps with known digits; the digits are lost at steps that depend on a schedule of doublings and the claim is about all of them.", "anchors": ["parts/header_file/files/elc/_files/base_defs/math.hpp:π_with_ε_impl_t::do_iteration", "parts/header_file/files/elc/_files/base_defs/math.hpp:π_with_ε_impl_t::do_sqrt_iteration", "parts/header_file/files/elc/_files/base_defs/math.hpp:π_with_ε_impl_t::take_value"]}
{"id": "C192", "title": "equal numbers have equal hashes", "statement": "Two numbers that compare equal have the same hash, whatever their representation and type, and every number has a hash; so tables keyed by numbers find them.", "quantifier": "all native integers, native floating point numbers, big integers and big fractions, however they are stored", "why_tests_cant": "Tests hash a few numbers in one representation; the digits, signs and unreduced fractions that denote one number are infinitely many.", "anchors": ["parts/header_file/files/elc/_files/base_defs/hash.hpp:hash_t::operator()", "parts/header_file/files/elc/_files/bignum/bignum/ubigint.hpp:hash", "parts/header_file/files/elc/_files/bignum/bignum/bigint.hpp:hash", "parts/header_file/files/elc/_files/bignum/bignum/ubigfloat.hpp:hash", "parts/header_file/files/elc/_files/bignum/bignum/bigfloat.hpp:hash", "parts/header_file/files/elc/_files/base/container/hash_table/defs.hpp:find_bucket"]}
{"id": "C193", "title": "shifts by signed and by big counts", "statement": "Shifting a big integer by a count with a sign delivers x*2^c without the fraction, a negative count shifting the other way; so it is for counts that are big integers, of any size.", "quantifier": "all unsigned and signed big integers, all counts of every native integer type, all counts that are big integers", "why_tests_cant": "Counts are unbounded and the least number of each type, counts wider than size_t and counts of whole digits take their own paths.", "anchors": ["parts/header_file/files/elc/_files/bignum/bignum/ubigint.hpp:operator<<, operator>>, operator<<=, operator>>=, to_size_t", "parts/header_file/files/elc/_files/bignum/bignum/bigint.hpp:operator<<, operator>>, operator<<=, operator>>=", "parts/header_file/files/elc/_files/base_defs/math.hpp:abs"]}
{"id": "C194", "title": "a dying program says why", "statement": "When ELC ends the program for a reason, the error console shows that ELC died and the whole reason, in red, whatever the reason is, and the console has its colour again.", "quantifier": "all messages of any length with any characters, all states of the error stream, Windows, Linux and other systems, all locales", "why_tests_cant": "The message may have any length and any characters, the error stream any history; a dying program is awkward to test and the buffer has room for every message anyone thought of.", "anchors": ["parts/_share/APIs/die.hpp:die, die_with, Init_die_state, ConsoleLog, ConsoleLogEnd", "parts/_share/char_set/convert.hpp:utf32_to_utf16", "parts/header_file/files/elc/_files/base_defs/string_view.hpp:string_view_t"]}
{"id": "C195", "title": "reading leaves a terminal as it was", "statement": "While a program reads from a terminal it gets the characters one by one; afterwards the terminal has the mode it had before, whichever threads read, in whatever order, and whenever the program ends.", "quantifier": "all modes of the terminal, all numbers of threads and interleavings of their reads, all moments at which the program can end, all kinds of devices, Windows and Linux", "why_tests_cant": "The interleavings and the moments at which a program can end are unbounded, and automated tests do not run on a terminal.", "anchors": ["parts/_share/APIs/streams.hpp:before_terminal_read, after_terminal_read, is_terminal_stream", "parts/header_file/files/elc/_files/stream/base_fstream/_body.hpp:system_terminal_irefstream", "parts/header_file/files/elc/_files/stream/defs.hpp:handle_istream_impl"]}
{"id": "C196", "title": "writing leaves a terminal as it was", "statement": "Writing to a stream onto any handle is defined and leaves the mode of the terminal as it was; escape sequences written to a terminal are interpreted.", "quantifier": "all modes, all kinds of handles, Windows and Linux", "why_tests_cant": "Automated tests do not run on a terminal, and a variable without a value often does no visible harm.", "anchors": ["parts/_share/APIs/streams.hpp:before_terminal_write, after_terminal_write, is_terminal_stream", "parts/header_file/files/elc/_files/stream/base_fstream/_body.hpp:base_text_ofstream_wrapper, system_terminal_orefstream", "parts/header_file/files/elc/_files/stream/defs.hpp:handle_ostream_impl"]}
{"id": "C197", "title": "a character of a string is a value", "statement": "For every string in ELC and every position in it, indexing gives a value that reads as the character there; assigning to it changes this character and nothing else; it stays usable as long as one keeps it, and what is no position or no character is refused.", "quantifier": "all strings, all positions of any type and sign, all values assigned, all histories of assignments, changes of the string and releases", "why_tests_cant": "Strings, positions and histories are unbounded, and the value refers to a string that may go away at any time.", "anchors": ["parts/header_file/files/elc/_files/_multi/string_arec_as_value.hpp:arec_as_value, arec_data_t", "parts/header_file/files/elc/_files/core/nodes/binary_node_t.hpp:use_as, arec, clear", "parts/header_file/files/elc/_files/string/defs.hpp:arec_t"]}
{"id": "C198", "title": "greatest and least of integers of different types", "statement": "For native integers of any types, equal says whether they are the same number, compare how they are ordered, max gives the greatest and min the least of any number of them, in whatever order they are given.", "quantifier": "all integer types (any width, with and without sign), all values, any number of arguments in any order", "why_tests_cant": "The pairs of types and values are too many, the lists unbounded, and the language converts operands silently.", "anchors": ["parts/header_file/files/elc/_files/base_defs/compare.hpp:equal, compare", "parts/header_file/files/elc/_files/base_defs/min_max.hpp:max, min"]}
{"id": "C199", "title": "greatest and least with NaN", "statement": "For any floating point numbers, max and min give the greatest and the least whatever the order of the arguments, and the two ways to call them agree.", "quantifier": "all lists of floating point numbers, NaN anywhere among them", "why_tests_cant": "Where the NaNs stand matters, and there are unboundedly many ways.", "anchors": ["parts/header_file/files/elc/_files/base_defs/min_max.hpp:max, min, for_type", "parts/header_file/files/elc/_files/base_defs/compare.hpp:compare"]}
{"id": "C200", "title": "the timer is a stopwatch", "statement": "After any history of start, reset, pause, resume and end that leaves it standing, a debug timer shows the time it ran since it was last started.", "quantifier": "all histories of calls, all readings of the clock", "why_tests_cant": "Histories are unbounded, and calls that come twice or in another order are rarely tried.", "anchors": ["parts/header_file/files/elc/_files/timer/defs.hpp:debug_timer_t"]}
{"id": "C201", "title": "reading from a stream of the C++ library", "statement": "A std::istream wrapped as a text stream delivers its characters in order and none is left out, whatever portions are asked for; tell says the position and changes nothing; seek and seek_to go to any position, also after the end was reached.", "quantifier": "all texts, all portions, all histories of calls, streams with and without skipws", "why_tests_cant": "Which characters are lost depends on where each portion begins.", "anchors": ["parts/header_file/files/elc/_files/base_stream/std_wrap/_body.hpp:std_istream_wrap"]}
{"id": "C202", "title": "writing to a stream of the C++ library", "statement": "A std::ostream wrapped as a text stream has all that was written to it, at the positions sought, after any history of calls, or the caller learns that it does not.", "quantifier": "all histories of writes and seeks, all limits of the room", "why_tests_cant": "Histories are unbounded, and where the room ends differs in each.", "anchors": ["parts/header_file/files/elc/_files/base_stream/std_wrap/_body.hpp:std_ostream_wrap, operator<<"]}
{"id": "C203", "title": "filling with copies of a value", "statement": "An array made of n copies of a value, an array into which n copies are inserted, and n elements assigned one value hold that value in each of them, and no other memory is changed; for every trivially copyable type and however the value is handed over.", "quantifier": "all types, values, numbers of elements and contents of memory", "why_tests_cant": "Types are unbounded, and the way of filling depends on their size and on the bytes of the value.", "anchors": ["parts/header_file/files/elc/_files/base_defs/memory/lifetime/defs.hpp:super_speed_trivial_copy_from_one, construct, copy_construct, copy_assign", "parts/header_file/files/elc/_files/base_defs/zero.hpp:is_all_byte_zero", "parts/header_file/files/elc/_files/base/container/array/defs.hpp:array_t"]}
{"id": "C204", "title": "writing a string to a stream of the C++ library", "statement": "std::cout << str writes the text of str, filled up to the width of the stream on the side its flags say, at the position of the stream; the width is zero afterwards; if there is too little room the beginning is written and the stream says that it is bad; a stream that is not in order is left as it is; and how the string is stored does not matter.", "quantifier": "all strings, all ways of storing them, all widths, alignments, positions and limits of the room", "why_tests_cant": "Widths, pieces and the place where the room ends combine without bound.", "anchors": ["parts/header_file/files/elc/_files/string/defs.hpp:operator<<"]}
{"id": "C205", "title": "assigning a range of elements", "statement": "Assigning n elements of an array to n others, by copying or by moving, gives each of them the value its source had before the call, and changes no other element, wherever the two ranges lie; assigning one value to n elements gives all of them that value, also if it is the value of one of them.", "quantifier": "all element types, memories, places and numbers of elements", "why_tests_cant": "What happens depends on the distance of the ranges and on the type; tests try ranges that are apart.", "anchors": ["parts/header_file/files/elc/_files/base_defs/memory/lifetime/defs.hpp:copy_assign, move_assign, move_assign.may_overlap"]}
{"id": "C206", "title": "assigning uses the assignment of the type", "statement": "Elements of arrays are assigned with the assignment of their type, if it has one.", "quantifier": "all element types", "why_tests_cant": "The way is chosen from six properties of the type; tests use types for which all ways agree.", "anchors": ["parts/header_file/files/elc/_files/base_defs/memory/lifetime/defs.hpp:copy_assign"]}
{"id": "C207", "title": "text of a bit set", "statement": "The text of a bit set of N bits in binary has N characters, the most significant bit first, and each is 1 exactly when its bit is set; in any other representation it is a text of at least N characters of the number with these binary digits. Reading the text as a number and storing it gives the same set.", "quantifier": "all numbers of bits, contents, representations and digit widths", "why_tests_cant": "All contents of all sizes; the text depends on bits no index can name.", "anchors": ["parts/header_file/files/elc/_files/numerical_representation/to_string/_body.hpp:to_string", "parts/header_file/files/elc/_files/base_defs/bitset.hpp:bitset", "parts/header_file/files/elc/_files/_multi/arithmetic_text_io.hpp:operator<<"]}
{"id": "C208", "title": "tangent, cotangent, secant and cosecant of fractions", "statement": "tan(x,ε), cot(x,ε), sec(x,ε) and csc(x,ε) of big fractions end and give numbers at most ε from the functions of the same name wherever these are defined.", "quantifier": "all fractions x in the domain, all positive ε", "why_tests_cant": "Near the poles an error of the divisor is magnified without bound; tests stay away from them.", "anchors": ["parts/header_file/files/elc/_files/base_defs/math.hpp:tan, cot, sec, csc"]}
{"id": "C209", "title": "the payload of a node as a T", "statement": "Whether a node is a T, and what a reference to its payload as a T refers to, follows the rules of the language: it is the payload if that is a T, or its sub-object of type T if there is exactly one and it is public; else asking says no, the reference that may fail fails and the constant reference is to the default value of T.", "quantifier": "all types T, all hierarchies of classes without virtual bases", "why_tests_cant": "All hierarchies; the code leaves the search to the rules for exception handlers and takes short cuts for final classes.", "anchors": ["parts/header_file/files/elc/_files/core/nodes/binary_node_t.hpp:was_an, maybe_fail_use_by_ref_as, const_use_by_ref_as, use_as"]}
{"id": "C210", "title": "native numbers as values of the interpreter", "statement": "A native integer or character turned into a value keeps its number, whatever its type: the payload is a char_t for a char_t, an int_t for signed types and a uint_t for unsigned ones, and two numbers get the same payload exactly when they are the same number of the same of these three kinds. Read back with its own type the number is the same.", "quantifier": "all native integer types, all their values", "why_tests_cant": "All values of all types; the type under which a number is stored is chosen by the type it comes from and reading asks for exactly one type.", "anchors": ["parts/header_file/files/elc/_files/core/base_def/decl.hpp:as_ptr, as_value", "parts/header_file/files/elc/_files/core/nodes/binary_node_t.hpp:const_use_by_ref_as, use_as", "parts/header_file/files/elc/_files/_share/default_data_type.hpp:char_t, int_t, uint_t"]}
