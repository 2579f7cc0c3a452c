{
 "claims": [
  {
   "property": "C01",
   "status": "proved",
   "theorems": [
    "ELC.Ubig.from_native_stores",
    "ELC.Ubig.to_native",
    "ELC.Ubig.native_round_trip",
    "ELC.Ubig.stored_form_unique"
   ],
   "note": ""
  },
  {
   "property": "C02",
   "status": "proved",
   "theorems": [
    "ELC.Ubig.eq_iff",
    "ELC.Ubig.cmp_correct"
   ],
   "note": ""
  },
  {
   "property": "C03",
   "status": "partial",
   "theorems": [
    "ELC.Ubig.eq_native_partial",
    "ELC.Ubig.eq_native_characterised",
    "ELC.Ubig.eq_native_refuted",
    "ELC.Ubig.cmp_native_partial",
    "ELC.Ubig.cmp_native_refuted",
    "ELC.Ubig.cmp_native_characterised"
   ],
   "note": "False of the code: == accepts a whole block of values and <=> compares digit counts with the size of the type. The theorems give exactly what both compute."
  },
  {
   "property": "C04",
   "status": "partial",
   "theorems": [
    "ELC.Ubig.add_correct",
    "ELC.Ubig.add_assign_correct",
    "ELC.Ubig.add_self_partial",
    "ELC.Ubig.add_self_refuted",
    "ELC.Ubig.add_self_characterised"
   ],
   "note": "Proved for every pair of different objects; x+=x with growth reads released storage."
  },
  {
   "property": "C05",
   "status": "partial",
   "theorems": [
    "ELC.Ubig.add_native_partial",
    "ELC.Ubig.add_native_narrow",
    "ELC.Ubig.add_native_refuted",
    "ELC.Ubig.add_native_characterised"
   ],
   "note": "Right exactly if the lowest digit and the native number together fit in the arithmetic type, which they always do for types narrower than two digits; otherwise the sum is too small by 2 to the number of its bits."
  },
  {
   "property": "C06",
   "status": "proved",
   "theorems": [
    "ELC.Ubig.sub_correct",
    "ELC.Ubig.sub_self_correct"
   ],
   "note": ""
  },
  {
   "property": "C07",
   "status": "partial",
   "theorems": [
    "ELC.Ubig.inc_correct",
    "ELC.Ubig.dec_partial",
    "ELC.Ubig.dec_borrow",
    "ELC.Ubig.dec_characterised",
    "ELC.Ubig.dec_refuted"
   ],
   "note": "++ proved; -- is wrong exactly when the lowest digit is zero."
  },
  {
   "property": "C08",
   "status": "partial",
   "theorems": [
    "ELC.Ubig.mul_schoolbook_correct",
    "ELC.Ubig.mul_small_correct",
    "ELC.Ubig.mul_partial",
    "ELC.Ubig.mul_depth_irrelevant",
    "ELC.Ubig.mul_characterised",
    "ELC.Ubig.mul_mid_characterised",
    "ELC.Ubig.mul_mid_correct",
    "ELC.Ubig.mul_refuted"
   ],
   "note": "Every delivered product is exact, for operands of every size; below 64 digits a product is always delivered; above, the divide-and-conquer path can write past its buffer: exactly when is given level by level for every size, and in closed form up to 124 digits."
  },
  {
   "property": "C09",
   "status": "partial",
   "theorems": [
    "ELC.Ubig.div_by_zero",
    "ELC.Ubig.schoolbook_division_correct",
    "ELC.Ubig.mod_small_correct",
    "ELC.Ubig.mod_partial",
    "ELC.Ubig.div_small_partial",
    "ELC.Ubig.div_partial",
    "ELC.Ubig.divmod_partial",
    "ELC.Ubig.divmod_small_delivers",
    "ELC.Ubig.divmod_depth_irrelevant",
    "ELC.Ubig.div_characterised",
    "ELC.Ubig.div_exact_correct",
    "ELC.Ubig.divmod_characterised",
    "ELC.Ubig.div_refuted",
    "ELC.Ubig.divmod_refuted",
    "ELC.Ubig.mod_one_digit_refuted",
    "ELC.Ubig.long_remainder_refuted",
    "ELC.Ubig.mod_self_partial",
    "ELC.Ubig.mod_self_refuted"
   ],
   "note": "Remainders are exact whenever delivered; quotients are exact under the stated size condition and at most one too large up to 32 digits; when it is wrong is characterised exactly up to 32 digits (div_characterised, divmod_characterised)."
  },
  {
   "property": "C10",
   "status": "proved",
   "theorems": [
    "ELC.Ubig.shl_correct",
    "ELC.Ubig.digit_shifts_correct"
   ],
   "note": ""
  },
  {
   "property": "C100",
   "status": "proved",
   "theorems": [
    "ELC.Chars.class_by_category",
    "ELC.Chars.digit_exact",
    "ELC.Chars.xdigit_exact",
    "ELC.Chars.space_exact",
    "ELC.Chars.blank_exact",
    "ELC.Chars.cntrl_exact",
    "ELC.Chars.iso_control_exact",
    "ELC.Chars.nonchar_undefined",
    "ELC.Chars.surrogate_class"
   ],
   "note": "The classes of letters are not compared with Unicode (their ranges would be as long as the table)."
  },
  {
   "property": "C101",
   "status": "partial",
   "theorems": [
    "ELC.Chars.class_relations",
    "ELC.Chars.class_relations_space",
    "ELC.Chars.xdigit_alnum",
    "ELC.Chars.graph_print_refuted",
    "ELC.Chars.graph_print_characterised",
    "ELC.Chars.cntrl_print_refuted",
    "ELC.Chars.cntrl_print_characterised",
    "ELC.Chars.print_iff"
   ],
   "note": "Private use characters are graphic and not printable; the line and the paragraph separator are control characters and printable. All other relations hold."
  },
  {
   "property": "C102",
   "status": "partial",
   "theorems": [
    "ELC.Chars.ascii_partial",
    "ELC.Chars.ascii_space_refuted",
    "ELC.Chars.ascii_space_characterised",
    "ELC.Chars.ascii_punct_characterised",
    "ELC.Chars.ascii_punct_refuted"
   ],
   "note": "Differences: 0x1c to 0x1f are white space, nine symbols such as + are not punctuation."
  },
  {
   "property": "C103",
   "status": "proved",
   "theorems": [
    "ELC.Stream.conv_write",
    "ELC.Stream.conv_write_lossless"
   ],
   "note": ""
  },
  {
   "property": "C104",
   "status": "partial",
   "theorems": [
    "ELC.Stream.conv_read_sound",
    "ELC.Stream.conv_get_refuted",
    "ELC.Stream.conv_get_split_refuted",
    "ELC.Stream.conv_read_partial",
    "ELC.Stream.conv_read_single_partial",
    "ELC.Stream.conv_get_characterised"
   ],
   "note": "False: the code converts all of each window of four bytes (two UTF-16 units), so it writes past the buffer of the reader or dies at a character cut by the window. What is delivered is right; getting a character works exactly if it fills the window or is the last."
  },
  {
   "property": "C105",
   "status": "partial",
   "theorems": [
    "ELC.Stream.read_words",
    "ELC.Stream.read_word_rest",
    "ELC.Stream.read_null_refuted",
    "ELC.Stream.read_open_characterised"
   ],
   "note": "Holds for every stream that says when it is at its end; the null stream never does."
  },
  {
   "property": "C106",
   "status": "partial",
   "theorems": [
    "ELC.Stream.getline_characterised",
    "ELC.Stream.getline_blank_refuted",
    "ELC.Stream.getline_lost_refuted",
    "ELC.Stream.getline_step_partial",
    "ELC.Stream.getline_lines_partial"
   ],
   "note": "Blank lines and leading white space are skipped; a last line of one character after a carriage return is lost."
  },
  {
   "property": "C107",
   "status": "partial",
   "theorems": [
    "ELC.Stream.echo_newlines",
    "ELC.Stream.echo_read_partial",
    "ELC.Stream.echo_once_partial",
    "ELC.Stream.echo_short_refuted",
    "ELC.Stream.echo_short_characterised",
    "ELC.Stream.echo_split_refuted"
   ],
   "note": "A read that gets less than it asks for echoes cells of the buffer that were not read; a carriage return and its line feed read apart are echoed as two line ends."
  },
  {
   "property": "C108",
   "status": "proved",
   "theorems": [
    "ELC.View.view_forward",
    "ELC.View.view_backward",
    "ELC.View.view_elements",
    "ELC.View.view_subview"
   ],
   "note": ""
  },
  {
   "property": "C109",
   "status": "partial",
   "theorems": [
    "ELC.View.substr_partial",
    "ELC.View.substr_end_refuted",
    "ELC.View.substr_end_characterised",
    "ELC.View.substr_beyond_refuted"
   ],
   "note": "With a position and a pointer the result is too long by the position; a position behind the end wraps round."
  },
  {
   "property": "C11",
   "status": "partial",
   "theorems": [
    "ELC.Ubig.shr_assign_correct",
    "ELC.Ubig.shr_partial",
    "ELC.Ubig.shr_delivered_correct",
    "ELC.Ubig.shr_refuted",
    "ELC.Ubig.shr_characterised"
   ],
   "note": ">>= proved; >> writes out of bounds exactly for counts with both a whole-digit and a bit part."
  },
  {
   "property": "C110",
   "status": "proved",
   "theorems": [
    "ELC.View.starts_with_char",
    "ELC.View.starts_with_view",
    "ELC.View.starts_with_zero",
    "ELC.View.length_of_zero"
   ],
   "note": ""
  },
  {
   "property": "C111",
   "status": "partial",
   "theorems": [
    "ELC.View.literal_in_range",
    "ELC.View.literal_finds",
    "ELC.View.literal_in_range_characterised",
    "ELC.View.literal_in_range_refuted"
   ],
   "note": "False only of 64 bit characters, as C57."
  },
  {
   "property": "C112",
   "status": "partial",
   "theorems": [
    "ELC.Series.sqrt_within",
    "ELC.Series.sqrt_exact_refuted"
   ],
   "note": "Holds for every positive ε; with ε=0 the guess is returned."
  },
  {
   "property": "C113",
   "status": "partial",
   "theorems": [
    "ELC.Series.sin_within_refuted",
    "ELC.Series.sin_within_partial",
    "ELC.Series.sin_coarse_partial",
    "ELC.Series.sin_ends",
    "ELC.Series.cos_within_partial"
   ],
   "note": "Holds for every argument and every precision up to 1 (for the cosine given π to that precision); false for coarser precisions, where the loop may stop before the terms shrink."
  },
  {
   "property": "C114",
   "status": "partial",
   "theorems": [
    "ELC.Series.exp_ends_refuted",
    "ELC.Series.exp_characterised",
    "ELC.Series.log_ends_refuted",
    "ELC.Series.log_characterised"
   ],
   "note": "exp ends for 0 only, log for 1 only: the loops wait for two equal sums, and big fractions are exact."
  },
  {
   "property": "C115",
   "status": "partial",
   "theorems": [
    "ELC.Series.arctan_unit_characterised",
    "ELC.Series.arctan_above_characterised",
    "ELC.Series.arctan_below_characterised",
    "ELC.Series.arctan_wrong_everywhere",
    "ELC.Series.arctan_refuted",
    "ELC.Series.arctan_zero_partial",
    "ELC.Series.arctan_one_value",
    "ELC.Series.arccos_refuted",
    "ELC.Series.arcsin_refuted",
    "ELC.Series.arccos_characterised",
    "ELC.Series.arcsec_characterised",
    "ELC.Series.arcsin_characterised"
   ],
   "note": "arctan gives x - x²·arctan x instead of arctan x (divisors one place late); arccos has the formula of arccot, arcsin multiplies where it should divide."
  },
  {
   "property": "C116",
   "status": "partial",
   "theorems": [
    "ELC.Series.pi_within",
    "ELC.Series.pi_is_pi_partial",
    "ELC.Series.pi_plain_history_partial",
    "ELC.Series.pi_any_history_refuted",
    "ELC.Series.pi_plain",
    "ELC.Series.chudnovsky_exists",
    "ELC.Series.chudnovsky_unique"
   ],
   "note": "The result is within ε of the sum of the series of Chudnovsky, for all ε; that this sum is π is proved up to 10^-19. False only when the root is improved by a direct call before anything else and ε is exactly about 1/30."
  },
  {
   "property": "C117",
   "status": "partial",
   "theorems": [
    "ELC.Series.reverse_sign_fraction",
    "ELC.Series.reverse_sign_refuted",
    "ELC.Series.reverse_sign_characterised",
    "ELC.Series.trunc_const",
    "ELC.Series.floor_const_refuted",
    "ELC.Series.floor_const_characterised",
    "ELC.Series.ceil_const_refuted",
    "ELC.Series.ceil_const_characterised"
   ],
   "note": "reverse_sign of a negative integer changes nothing; floor at compile time is wrong for positive fractions and negative integers, ceil just above an integer."
  },
  {
   "property": "C118",
   "status": "proved",
   "theorems": [
    "ELC.Memfile.memory_file"
   ],
   "note": "For histories that stay in the file; the blocks are anywhere."
  },
  {
   "property": "C119",
   "status": "partial",
   "theorems": [
    "ELC.Memfile.seek_offset_refuted",
    "ELC.Memfile.seek_offset_characterised",
    "ELC.Memfile.read_beyond_characterised",
    "ELC.Memfile.write_beyond_characterised",
    "ELC.Memfile.seek_beyond_refuted",
    "ELC.Memfile.tell_refuted",
    "ELC.Memfile.tell_characterised",
    "ELC.Memfile.close_refuted",
    "ELC.Memfile.close_characterised"
   ],
   "note": "False: offsets from the beginning and end are not looked at, positions are pointers that a growing block makes stale, positions after the end and after close lead outside. Each case is characterised exactly."
  },
  {
   "property": "C12",
   "status": "proved",
   "theorems": [
    "ELC.Ubig.bit_at_correct",
    "ELC.Ubig.countr_zero_correct",
    "ELC.Ubig.get_bitnum_correct",
    "ELC.Ubig.is_odd_correct"
   ],
   "note": ""
  },
  {
   "property": "C120",
   "status": "proved",
   "theorems": [
    "ELC.Textio.read_back",
    "ELC.Textio.builtin_no_space",
    "ELC.Textio.common_clear"
   ],
   "note": ""
  },
  {
   "property": "C121",
   "status": "partial",
   "theorems": [
    "ELC.Textio.read_bool_characterised",
    "ELC.Textio.read_bool_refuted"
   ],
   "note": "False for other(...) with a byte that is too large, with no digits or with no number; what every word does is characterised."
  },
  {
   "property": "C122",
   "status": "partial",
   "theorems": [
    "ELC.Textio.read_end_refuted",
    "ELC.Textio.read_end_characterised",
    "ELC.Textio.read_wrong_refuted",
    "ELC.Textio.read_unsigned_partial"
   ],
   "note": "False: a signed number at the end of the stream is undefined, too large numbers wrap and other words are 0. Proved: exactly what happens."
  },
  {
   "property": "C123",
   "status": "partial",
   "theorems": [
    "ELC.Names.lookup_innermost",
    "ELC.Names.lookup_shadows",
    "ELC.Names.lookup_nil_refuted",
    "ELC.Names.initial_symbols",
    "ELC.Names.lookup_cycle_refuted",
    "ELC.Names.lookup_ends_characterised"
   ],
   "note": "Holds for symbols with a value that is true or with a type and for name spaces that are not nested in a circle; false else, with exactly when looking up ends."
  },
  {
   "property": "C124",
   "status": "partial",
   "theorems": [
    "ELC.Names.enter_leave_partial",
    "ELC.Names.enter_unknown_refuted",
    "ELC.Names.lost_characterised",
    "ELC.Names.enter_outside_characterised"
   ],
   "note": "Holds for entering a name space that is there; entering one that is not, or leaving the root, loses all name spaces for good."
  },
  {
   "property": "C125",
   "status": "partial",
   "theorems": [
    "ELC.Names.assign_partial",
    "ELC.Names.assign_refuted",
    "ELC.Names.assign_undeclared_characterised"
   ],
   "note": "Holds for declared symbols unless nil is assigned to one without a type; assigning to an undeclared symbol does nothing."
  },
  {
   "property": "C126",
   "status": "proved",
   "theorems": [
    "ELC.Stack.stacks_are_lists",
    "ELC.Stack.stacks_memory",
    "ELC.Stack.move_empty_characterised"
   ],
   "note": "Moving the top needs a stack with a top and another stack: without a top the null pointer is followed."
  },
  {
   "property": "C127",
   "status": "partial",
   "theorems": [
    "ELC.Throw.outcome",
    "ELC.Throw.completes",
    "ELC.Throw.assign_leaves_nothing_refuted",
    "ELC.Throw.assign_thrown_characterised"
   ],
   "note": "The old array is untouched, but the new block is lost with all elements made before the exception, always."
  },
  {
   "property": "C128",
   "status": "partial",
   "theorems": [
    "ELC.Throw.outcome",
    "ELC.Throw.grow_unchanged_refuted",
    "ELC.Throw.grow_unchanged_characterised",
    "ELC.Throw.grow_nothrow_move"
   ],
   "note": "Unchanged exactly if the very first move throws; if moves do not throw, no element is lost, but the array has cells without elements."
  },
  {
   "property": "C129",
   "status": "partial",
   "theorems": [
    "ELC.Throw.outcome",
    "ELC.Throw.never_undefined",
    "ELC.Throw.destroy_defined_iff",
    "ELC.Throw.destroy_after_throw_refuted",
    "ELC.Throw.destroy_after_throw_characterised"
   ],
   "note": "False whenever the constructor of a new element throws and in most cases of a throwing move; exactly when is characterised."
  },
  {
   "property": "C13",
   "status": "partial",
   "theorems": [
    "ELC.Bigint.of_int_correct",
    "ELC.Bigint.add_partial",
    "ELC.Bigint.add_refuted",
    "ELC.Bigint.add_assign_partial",
    "ELC.Bigint.add_assign_diverges",
    "ELC.Bigint.add_assign_refuted",
    "ELC.Bigint.sub_correct",
    "ELC.Bigint.sub_assign_characterised",
    "ELC.Bigint.sub_assign_partial",
    "ELC.Bigint.sub_assign_refuted",
    "ELC.Bigint.sub_rvalue_refuted",
    "ELC.Bigint.mul_correct",
    "ELC.Bigint.mul_assign_correct",
    "ELC.Bigint.div_correct",
    "ELC.Bigint.div_assign_correct",
    "ELC.Bigint.mod_correct",
    "ELC.Bigint.mod_assign_correct",
    "ELC.Bigint.div_mod_zero",
    "ELC.Bigint.div_mod_identity",
    "ELC.Bigint.neg_correct",
    "ELC.Bigint.inc_dec_correct",
    "ELC.Bigint.shift_correct"
   ],
   "note": "-, *, /, %, *=, /=, %=, shifts, ++ and -- are exact for every sign combination. + and += are exact for equal signs only: with different signs they never return or leave the left side unchanged; -= is wrong for every non-zero right side."
  },
  {
   "property": "C130",
   "status": "partial",
   "theorems": [
    "ELC.Throw.outcome",
    "ELC.Throw.throw_reaches_caller_refuted",
    "ELC.Throw.throw_reaches_caller_characterised"
   ],
   "note": "False for copies made by array_t(size,elem) and by insert, whose noexcept conditions look at the default constructor."
  },
  {
   "property": "C131",
   "status": "partial",
   "theorems": [
    "ELC.Eval.eval_partial",
    "ELC.Eval.jump_characterised",
    "ELC.Eval.jump_out_refuted",
    "ELC.Eval.ideal_unique"
   ],
   "note": "Right when the target is an element of the list the jump is in. A jump to an outer list runs that list inside the inner one, so what follows a loop runs once for every round."
  },
  {
   "property": "C132",
   "status": "partial",
   "theorems": [
    "ELC.Eval.eval_partial",
    "ELC.Eval.return_characterised",
    "ELC.Eval.return_refuted"
   ],
   "note": "Right when an element of the list was answered before and no other list was evaluated since; otherwise the answer is that of another list."
  },
  {
   "property": "C133",
   "status": "proved",
   "theorems": [
    "ELC.Eval.code_list_keeps_jumps",
    "ELC.Eval.errors_pass",
    "ELC.Eval.done_stays_done"
   ],
   "note": ""
  },
  {
   "property": "C134",
   "status": "partial",
   "theorems": [
    "ELC.Eval.expr_characterised",
    "ELC.Eval.self_evaluating",
    "ELC.Eval.expr_head_refuted"
   ],
   "note": "The head is used as it is: an expression in its place is neither evaluated nor called."
  },
  {
   "property": "C135",
   "status": "partial",
   "theorems": [
    "ELC.Eval.parts_correct",
    "ELC.Eval.straight_list_partial",
    "ELC.Eval.endless_characterised",
    "ELC.Eval.dotted_list_refuted"
   ],
   "note": "Right for lists that end with nil or void; a list that ends with any other node that has no parts goes on with that node for ever."
  },
  {
   "property": "C136",
   "status": "partial",
   "theorems": [
    "ELC.Alloc.alloc_partial",
    "ELC.Alloc.alloc_characterised",
    "ELC.Alloc.alloc_nothing",
    "ELC.Alloc.arrays_apart",
    "ELC.Alloc.alloc_count_refuted",
    "ELC.Alloc.alloc_size_refuted"
   ],
   "note": "Proved when the bytes and the size kept in front of them fit into size_t. Otherwise sizeof(T)*n or the addition of the header wraps, and a block that is too short is given."
  },
  {
   "property": "C137",
   "status": "partial",
   "theorems": [
    "ELC.Alloc.size_partial",
    "ELC.Alloc.size_null",
    "ELC.Alloc.copy_alloc_partial",
    "ELC.Alloc.size_characterised",
    "ELC.Alloc.size_refuted"
   ],
   "note": "Proved for all histories in which the sizes fit into size_t."
  },
  {
   "property": "C138",
   "status": "partial",
   "theorems": [
    "ELC.Alloc.realloc_partial",
    "ELC.Alloc.aligned_partial",
    "ELC.Alloc.realloc_failed",
    "ELC.Alloc.realloc_ends",
    "ELC.Alloc.realloc_align_refuted",
    "ELC.Alloc.realloc_in_place_refuted"
   ],
   "note": "Elements, other arrays and failure are right. The alignment is kept on Windows or up to 16; std::realloc promises no more, and may move an array that gets shorter."
  },
  {
   "property": "C139",
   "status": "proved",
   "theorems": [
    "ELC.Alloc.free_correct",
    "ELC.Alloc.no_leaks"
   ],
   "note": ""
  },
  {
   "property": "C14",
   "status": "partial",
   "theorems": [
    "ELC.Bigint.eq_partial",
    "ELC.Bigint.cmp_partial",
    "ELC.Bigint.normal_preserved",
    "ELC.Bigint.negative_zero_refuted",
    "ELC.Bigint.order_characterised",
    "ELC.Bigint.negative_zero_characterised",
    "ELC.Bigint.hash_partial"
   ],
   "note": "Agreement with the integers holds for everything but a negative zero; *=, /=, %=, >>= and negation of a temporary produce one, and it differs from zero."
  },
  {
   "property": "C140",
   "status": "proved",
   "theorems": [
    "ELC.Alloc.counts_correct",
    "ELC.Alloc.counts_bounded"
   ],
   "note": "The numbers of calls and of bytes given are counted modulo 2^64; what is in use and its maximum are exact."
  },
  {
   "property": "C141",
   "status": "partial",
   "theorems": [
    "ELC.File.read_partial",
    "ELC.File.reads_partial",
    "ELC.File.get_peek_partial",
    "ELC.File.read_error_refuted",
    "ELC.File.read_error_characterised",
    "ELC.File.read_large_refuted",
    "ELC.File.get_error_refuted"
   ],
   "note": "Proved for all portions; an error is taken for 2^64-1 characters on POSIX systems, and reads of 2^32 bytes read nothing on Windows."
  },
  {
   "property": "C142",
   "status": "partial",
   "theorems": [
    "ELC.File.seek_posix",
    "ELC.File.told_partial",
    "ELC.File.seek_held_refuted",
    "ELC.File.seek_held_characterised",
    "ELC.File.seek_large_refuted"
   ],
   "note": "Proved when nothing is held back and, on Windows, below 2^31. Data held back (also by peek) is still read first after a seek."
  },
  {
   "property": "C143",
   "status": "partial",
   "theorems": [
    "ELC.File.write_partial",
    "ELC.File.write_read_back",
    "ELC.File.write_short_refuted",
    "ELC.File.write_characterised"
   ],
   "note": "The number of bytes the system wrote is not looked at: the rest of a write carried out in part is lost."
  },
  {
   "property": "C144",
   "status": "partial",
   "theorems": [
    "ELC.File.handles_partial",
    "ELC.File.others_partial",
    "ELC.File.close_refuted",
    "ELC.File.zero_handle_refuted"
   ],
   "note": "Proved for programs that do not call close and get no handle 0. close leaves the handle in the stream, and its end closes whatever has it then."
  },
  {
   "property": "C145",
   "status": "partial",
   "theorems": [
    "ELC.Codec.written_correct",
    "ELC.Codec.written_died",
    "ELC.Codec.written_pieces",
    "ELC.Codec.written_apart",
    "ELC.Codec.utf8_all",
    "ELC.Codec.c_locale_refuted",
    "ELC.Codec.round_trip_partial",
    "ELC.Codec.round_trip_refuted",
    "ELC.Codec.round_trip_characterised"
   ],
   "note": "Writing is right in every encoding. The locale is never set, so on Linux only ASCII can be written; converting back never ends exactly if the text has the character 0."
  },
  {
   "property": "C146",
   "status": "partial",
   "theorems": [
    "ELC.Codec.c_string_correct",
    "ELC.Codec.cut_refuted",
    "ELC.Codec.bytes_characterised",
    "ELC.Codec.zero_refuted"
   ],
   "note": "Proved in full for C strings. A view with a zero in it is never converted; a view that ends inside a character reads the memory behind it."
  },
  {
   "property": "C147",
   "status": "partial",
   "theorems": [
    "ELC.Codec.name_partial",
    "ELC.Codec.name_apart_partial",
    "ELC.Codec.name_refuted",
    "ELC.Codec.name_characterised"
   ],
   "note": "Exactly the part before the first character 0 is given to the system."
  },
  {
   "property": "C148",
   "status": "proved",
   "theorems": [
    "ELC.Iter.forward_correct",
    "ELC.Iter.backward_correct"
   ],
   "note": "For all containers of fewer than 2^63 elements (there are no longer ones)."
  },
  {
   "property": "C149",
   "status": "partial",
   "theorems": [
    "ELC.Iter.plus_correct",
    "ELC.Iter.minus_partial",
    "ELC.Iter.minus_characterised",
    "ELC.Iter.minus_refuted",
    "ELC.Iter.steps_correct",
    "ELC.Iter.inc_correct",
    "ELC.Iter.element_correct"
   ],
   "note": "Everything but it-n for the smallest n, whose negation overflows."
  },
  {
   "property": "C15",
   "status": "partial",
   "theorems": [
    "ELC.Bigfloat.ufrac_eq_correct",
    "ELC.Bigfloat.ufrac_cmp_correct",
    "ELC.Bigfloat.ufrac_add_correct",
    "ELC.Bigfloat.ufrac_sub_correct",
    "ELC.Bigfloat.ufrac_mul_correct",
    "ELC.Bigfloat.ufrac_div_correct",
    "ELC.Bigfloat.ufrac_int_forms_correct",
    "ELC.Bigfloat.ufrac_int_assign_correct",
    "ELC.Bigfloat.ufrac_cmp_int_correct",
    "ELC.Bigfloat.ufrac_assign_correct",
    "ELC.Bigfloat.ufrac_div_assign_partial",
    "ELC.Bigfloat.ufrac_div_assign_refuted",
    "ELC.Bigfloat.ufrac_div_assign_self",
    "ELC.Bigfloat.ufrac_trunc_correct",
    "ELC.Bigfloat.ufrac_split_correct",
    "ELC.Bigfloat.ufrac_simplify_correct",
    "ELC.Bigfloat.ufrac_simplify_refuted",
    "ELC.Bigfloat.ufrac_simplify_characterised",
    "ELC.Bigfloat.ufrac_simplify_zero_characterised",
    "ELC.Bigfloat.ufrac_reciprocal_correct",
    "ELC.Bigfloat.ufrac_hash_refuted"
   ],
   "note": "Everything holds except x/=x with both sides the same object, and that 0/4 is not brought to lowest terms."
  },
  {
   "property": "C150",
   "status": "partial",
   "theorems": [
    "ELC.Iter.bits_refuted",
    "ELC.Iter.bits_characterised",
    "ELC.Iter.bits_index"
   ],
   "note": "False of every bit set: end() is before the beginning. The loop sees the bits, then the unused ones, then reads behind the bytes."
  },
  {
   "property": "C151",
   "status": "partial",
   "theorems": [
    "ELC.Iter.times_partial",
    "ELC.Iter.times_refuted",
    "ELC.Iter.times_characterised",
    "ELC.Iter.times_nested"
   ],
   "note": "Right for all numbers that are not negative; for negative ones the counter runs up to the end of its type."
  },
  {
   "property": "C152",
   "status": "partial",
   "theorems": [
    "ELC.Convert.ubig_to_correct",
    "ELC.Convert.ubig_safe_keeps",
    "ELC.Convert.ubig_safe_partial",
    "ELC.Convert.ubig_safe_refuted",
    "ELC.Convert.ubig_safe_characterised"
   ],
   "note": "What is found safe keeps its value, always. With digits wider than the type, every number but zero is found unsafe."
  },
  {
   "property": "C153",
   "status": "partial",
   "theorems": [
    "ELC.Convert.big_to_partial",
    "ELC.Convert.big_to_refuted",
    "ELC.Convert.big_to_characterised",
    "ELC.Convert.big_safe_partial",
    "ELC.Convert.big_safe_refuted",
    "ELC.Convert.big_safe_characterised",
    "ELC.Convert.big_safe_keeps"
   ],
   "note": "Right for numbers that are not negative. Negative numbers are called safe for unsigned types and lose their sign; for signed types from int on the question is undefined for them."
  },
  {
   "property": "C154",
   "status": "partial",
   "theorems": [
    "ELC.Convert.ufrac_safe_correct",
    "ELC.Convert.ufrac_to_correct",
    "ELC.Convert.ufrac_safe_keeps",
    "ELC.Convert.frac_safe_partial",
    "ELC.Convert.frac_safe_refuted",
    "ELC.Convert.frac_safe_characterised",
    "ELC.Convert.frac_to_characterised"
   ],
   "note": "Holds of unsigned fractions. For signed ones the sign is not looked at."
  },
  {
   "property": "C155",
   "status": "partial",
   "theorems": [
    "ELC.Native.div_big_characterised",
    "ELC.Native.div_big_partial",
    "ELC.Native.div_big_refuted",
    "ELC.Native.mod_big_partial",
    "ELC.Native.div_ubig_partial",
    "ELC.Native.div_ubig_refuted",
    "ELC.Native.div_big_unsigned"
   ],
   "note": "Right by divisors without sign or not negative. The sign of a negative divisor is applied twice to a quotient of a signed type. The least number of a type from int on has no abs: undefined."
  },
  {
   "property": "C156",
   "status": "partial",
   "theorems": [
    "ELC.Native.ufrac_pow_correct",
    "ELC.Native.ufrac_pow_finite",
    "ELC.Native.nat_pow_correct",
    "ELC.Native.frac_pow_correct",
    "ELC.Native.frac_pow_int_partial",
    "ELC.Native.frac_pow_int_refuted",
    "ELC.Native.frac_pow_int_characterised",
    "ELC.Native.int_pow_correct"
   ],
   "note": "Holds but for signed fractions with negative exponents, where the sign of the exponent is dropped."
  },
  {
   "property": "C157",
   "status": "partial",
   "theorems": [
    "ELC.Native.divmod_correct",
    "ELC.Native.ceil_div_partial",
    "ELC.Native.ceil_div_refuted",
    "ELC.Native.ceil_div_characterised",
    "ELC.Native.sub_partial",
    "ELC.Native.sub_refuted",
    "ELC.Native.sub_characterised",
    "ELC.Native.is_odd_correct"
   ],
   "note": "divmod and is_odd hold. ceil_div is right for operands of the same sign, sub of unsigned numbers for operands of the same half."
  },
  {
   "property": "C158",
   "status": "partial",
   "theorems": [
    "ELC.Uniform.exclusive_partial",
    "ELC.Uniform.exclusive_characterised",
    "ELC.Uniform.exclusive_refuted",
    "ELC.Uniform.exclusive_divisor",
    "ELC.Uniform.inclusive_correct",
    "ELC.Uniform.inclusive_returns"
   ],
   "note": "The inclusive draw holds. The exclusive draw is from 0 to 1, and it is 1 for exactly the greatest draws, which round up to the power of two."
  },
  {
   "property": "C159",
   "status": "partial",
   "theorems": [
    "ELC.Uniform.between_partial",
    "ELC.Uniform.between_lower",
    "ELC.Uniform.between_wide",
    "ELC.Uniform.between_refuted",
    "ELC.Uniform.between_swap"
   ],
   "note": "Holds if the difference of the bounds is a number of the format; no finite result is below the lower bound. Bounds too far apart give NaN or infinity only; a rounded difference can pass the upper bound."
  },
  {
   "property": "C16",
   "status": "partial",
   "theorems": [
    "ELC.Bigfloat.frac_add_correct",
    "ELC.Bigfloat.frac_of_correct",
    "ELC.Bigfloat.frac_neg_correct",
    "ELC.Bigfloat.frac_sub_correct",
    "ELC.Bigfloat.frac_mul_correct",
    "ELC.Bigfloat.frac_div_correct",
    "ELC.Bigfloat.frac_assign_correct",
    "ELC.Bigfloat.frac_assign_unsigned_partial",
    "ELC.Bigfloat.frac_add_assign_unsigned_refuted",
    "ELC.Bigfloat.frac_eq_partial",
    "ELC.Bigfloat.frac_order_characterised",
    "ELC.Bigfloat.frac_negative_zero_characterised",
    "ELC.Bigfloat.frac_cmp_partial",
    "ELC.Bigfloat.frac_sub_self_refuted",
    "ELC.Bigfloat.frac_sub_self_value",
    "ELC.Bigfloat.frac_split_correct",
    "ELC.Bigfloat.frac_simplify_reciprocal_correct"
   ],
   "note": "Values are exact for every sign combination; == and <=> fail on the negative zero that x-x produces; += of an unsigned number ignores the sign."
  },
  {
   "property": "C160",
   "status": "partial",
   "theorems": [
    "ELC.Interp.read_partial",
    "ELC.Interp.read_exact",
    "ELC.Interp.read_characterised",
    "ELC.Interp.read_refuted"
   ],
   "note": "Holds before the last character, of characters in the lower half of their type. At the position of the last character the one behind the end is read."
  },
  {
   "property": "C161",
   "status": "partial",
   "theorems": [
    "ELC.Interp.write_defined_characterised",
    "ELC.Interp.write_partial",
    "ELC.Interp.write_whole",
    "ELC.Interp.write_refuted"
   ],
   "note": "Holds if the line of the old slope through the new value stays inside the type. Otherwise undefined; a whole position changes the next character as well."
  },
  {
   "property": "C162",
   "status": "partial",
   "theorems": [
    "ELC.Special.nan_round_trip_partial",
    "ELC.Special.nan_characterised",
    "ELC.Special.nan_round_trip_refuted",
    "ELC.Special.is_nan_correct",
    "ELC.Special.builtin_good"
   ],
   "note": "Holds in every radix below 256. From 256 on (the built-in valanlottish) the loop that reads the bytes has no end, so only the NaNs that have names are read back."
  },
  {
   "property": "C163",
   "status": "proved",
   "theorems": [
    "ELC.Special.inf_round_trip",
    "ELC.Special.is_inf_correct",
    "ELC.Special.builtin_good"
   ],
   "note": "For all representations whose words are different."
  },
  {
   "property": "C164",
   "status": "partial",
   "theorems": [
    "ELC.Special.nan_fields",
    "ELC.Special.nan_text_bare",
    "ELC.Special.nan_text_numbers",
    "ELC.Special.nan_text_bad",
    "ELC.Special.nan_text_refuted"
   ],
   "note": "What is read is characterised for every text. Anything may follow the word without an error; too few or too many numbers are undefined; the numbers need not be those of a NaN."
  },
  {
   "property": "C165",
   "status": "partial",
   "theorems": [
    "ELC.Print.print_small_partial",
    "ELC.Print.print_twelve",
    "ELC.Print.print_builtin",
    "ELC.Print.print_never_less_partial",
    "ELC.Print.print_deterministic",
    "ELC.Print.print_refuted",
    "ELC.Print.print_trinary_refuted",
    "ELC.Print.print_long_refuted"
   ],
   "note": "Holds for up to 32 digits in radix two, eight, ten and sixteen, and for up to 12 digits in every radix of at most two digits. Beyond that texts may be wrong or undefined; a delivered text never denotes less than the number."
  },
  {
   "property": "C166",
   "status": "partial",
   "theorems": [
    "ELC.Print.read_delivered",
    "ELC.Print.read_partial",
    "ELC.Print.read_depth_irrelevant",
    "ELC.Print.read_refuted",
    "ELC.Print.print_read_round_trip"
   ],
   "note": "Every delivered number is right, and delivery is proved for decimal texts of up to 1536 characters in release and 384 in debug builds; a text of 1648 characters is undefined."
  },
  {
   "property": "C167",
   "status": "partial",
   "theorems": [
    "ELC.Symname.names_are_values",
    "ELC.Symname.names_alone",
    "ELC.Symname.make_refuted",
    "ELC.Symname.make_characterised"
   ],
   "note": "Every history of names that could be made is one of values, and the memory is free at the end. With gcc and clang a name that cannot be demangled is freed although it is static."
  },
  {
   "property": "C168",
   "status": "partial",
   "theorems": [
    "ELC.Symname.type_name_characterised",
    "ELC.Symname.type_name_partial",
    "ELC.Symname.type_name_refuted"
   ],
   "note": "The characters before the first zero are the name; with gcc and clang the size counts the whole buffer of the demangler."
  },
  {
   "property": "C169",
   "status": "partial",
   "theorems": [
    "ELC.Symname.function_name_partial",
    "ELC.Symname.function_name_refuted",
    "ELC.Symname.jump_name_partial",
    "ELC.Symname.plain_name",
    "ELC.Symname.jump_bare",
    "ELC.Symname.jump_name_refuted",
    "ELC.Symname.function_name_characterised",
    "ELC.Symname.jump_name_characterised"
   ],
   "note": "Holds for symbols that can be demangled and for targets of jump tables below 1024 characters; undefined for all other functions on Linux and for longer targets on Windows."
  },
  {
   "property": "C17",
   "status": "proved",
   "theorems": [
    "ELC.Numeral.native_round_trip",
    "ELC.Numeral.numeral_determined",
    "ELC.Numeral.from_char_correct",
    "ELC.Numeral.good_continuous",
    "ELC.Numeral.good_table",
    "ELC.Numeral.builtin_usable"
   ],
   "note": "Every representation of the two kinds the library offers, every width."
  },
  {
   "property": "C170",
   "status": "partial",
   "theorems": [
    "ELC.Origin.lines_correct",
    "ELC.Origin.file_partial",
    "ELC.Origin.file_refuted"
   ],
   "note": "Lines are right in every history. Files are right if each allocation so far belongs to an operation; an allocation outside of operations leaves the empty name for the next operation."
  },
  {
   "property": "C171",
   "status": "partial",
   "theorems": [
    "ELC.Origin.report_quiet_partial",
    "ELC.Origin.report_operation_partial",
    "ELC.Origin.report_refuted"
   ],
   "note": "Readable until another operation allocates. Then the block is reported with the file of the other operation, or the name is read from freed memory."
  },
  {
   "property": "C172",
   "status": "partial",
   "theorems": [
    "ELC.Lib.held_loaded_partial",
    "ELC.Lib.all_closed_partial",
    "ELC.Lib.linux_characterised",
    "ELC.Lib.failed_load_refuted",
    "ELC.Lib.exit_refuted",
    "ELC.Lib.exit_windows"
   ],
   "note": "Holds for every history on Windows, and on Linux if every library is found. On Linux dlclose(NULL) is called for a library that was not found, and at the end of every program for the object that stands for no library."
  },
  {
   "property": "C173",
   "status": "partial",
   "theorems": [
    "ELC.Lib.symbol_partial",
    "ELC.Lib.missing_symbol_refuted",
    "ELC.Lib.unloaded_symbol_refuted",
    "ELC.Lib.loader_characterised"
   ],
   "note": "Symbols that exist are right. A missing symbol makes a reference of null, which is undefined; a library that was not loaded gives the functions of the program itself."
  },
  {
   "property": "C174",
   "status": "partial",
   "theorems": [
    "ELC.Package.needs_met_partial",
    "ELC.Package.needs_met_same_minor_partial",
    "ELC.Package.plain_characterised",
    "ELC.Package.minor_refuted"
   ],
   "note": "Holds up to minor versions for all needs, and with minor versions if no package is mentioned with two of them. Otherwise the first one asked for stays."
  },
  {
   "property": "C175",
   "status": "proved",
   "theorems": [
    "ELC.Package.list_good",
    "ELC.Package.list_order"
   ],
   "note": ""
  },
  {
   "property": "C176",
   "status": "partial",
   "theorems": [
    "ELC.Package.not_found_sound",
    "ELC.Package.no_package_partial",
    "ELC.Package.nested_choice_refuted",
    "ELC.Package.unknown_package_refuted"
   ],
   "note": "package_not_found is always right; the other exception is right if no choice lies in another one. A failing choice inside a choice ends everything; an unknown package is a null pointer."
  },
  {
   "property": "C177",
   "status": "partial",
   "theorems": [
    "ELC.Package.choice_partial",
    "ELC.Package.choice_best_partial",
    "ELC.Package.candidates_characterised",
    "ELC.Package.choice_undefined_characterised",
    "ELC.Package.choice_refuted",
    "ELC.Package.choice_first"
   ],
   "note": "What is taken is best. Nothing can be taken, and a remainder by zero is computed, exactly if the first of several shortest lists has fewer installed packages than another one."
  },
  {
   "property": "C178",
   "status": "partial",
   "theorems": [
    "ELC.Count.counters_partial",
    "ELC.Count.leak_free",
    "ELC.Count.clear_refuted",
    "ELC.Count.counters_characterised",
    "ELC.Count.counters_exact"
   ],
   "note": "Right exactly if no memory was in use when the counters were last cleared; otherwise they tell what is in use less what was in use then."
  },
  {
   "property": "C179",
   "status": "partial",
   "theorems": [
    "ELC.Wide.int_compare_correct",
    "ELC.Wide.int_sub_correct",
    "ELC.Wide.int_neg_correct",
    "ELC.Wide.int_add_partial",
    "ELC.Wide.int_add_refuted",
    "ELC.Wide.int_sub_assign_characterised",
    "ELC.Wide.int_mul_partial",
    "ELC.Wide.int_div_characterised",
    "ELC.Wide.int_div_partial",
    "ELC.Wide.int_div_refuted",
    "ELC.Wide.int_mod_partial",
    "ELC.Wide.int_shift_partial",
    "ELC.Wide.int_step_characterised",
    "ELC.Wide.int_inc_refuted"
   ],
   "note": "Subtraction, negation, comparison (except of a negative zero) and left shifts hold for all sizes; products and remainders that are delivered are exact; quotients up to 32 digits and steps are characterised exactly. Sums of different signs never return."
  },
  {
   "property": "C18",
   "status": "partial",
   "theorems": [
    "ELC.Numeral.big_to_string_correct",
    "ELC.Numeral.big_from_string_correct",
    "ELC.Numeral.big_round_trip"
   ],
   "note": "The splitting conversions over exact big-integer arithmetic, for every number, radix and digit width. Missing: the arithmetic itself is exact only where C08-C10 say so (division is not exact for some operands of more than 32 digits); C165 and C166 say what the real arithmetic gives."
  },
  {
   "property": "C180",
   "status": "partial",
   "theorems": [
    "ELC.Wide.frac_arith_partial",
    "ELC.Wide.frac_compare_partial",
    "ELC.Wide.frac_delivers",
    "ELC.Wide.frac_delivers_refuted",
    "ELC.Wide.rat_arith_partial",
    "ELC.Wide.rat_compare_partial",
    "ELC.Wide.rat_delivers"
   ],
   "note": "What is delivered is exact, for all sizes and signs (comparison except of a negative zero); delivery is proved if one operand has fewer than 64 digits. Longer products may run out of their buffer (C08)."
  },
  {
   "property": "C181",
   "status": "partial",
   "theorems": [
    "ELC.Wide.gcd_partial",
    "ELC.Wide.gcd_refuted",
    "ELC.Wide.gcd_long_partial",
    "ELC.Wide.gcd_long_refuted",
    "ELC.Wide.simplify_partial",
    "ELC.Wide.rat_simplify_partial",
    "ELC.Wide.simplify_long_refuted"
   ],
   "note": "Holds up to 32 digits, for gcd up to 255, if the first number is not zero; whatever gcd delivers for longer numbers is right, but it reads outside the storage when one number has at least 256 digits and the other at least two but 32 fewer. A longer fraction whose gcd fits in a digit makes simplify read outside its storage."
  },
  {
   "property": "C182",
   "status": "partial",
   "theorems": [
    "ELC.Wide.trunc_characterised",
    "ELC.Wide.split_characterised",
    "ELC.Wide.trunc_refuted"
   ],
   "note": "Characterised exactly up to 32 digits: trunc is one too large and split undefined for certain denominators."
  },
  {
   "property": "C183",
   "status": "partial",
   "theorems": [
    "ELC.Text.find_of_partial",
    "ELC.Text.find_last_of_characterised",
    "ELC.Text.find_last_of_refuted"
   ],
   "note": "Holds for three of the four; find_last_of ends without a return exactly when more than one character below 256 is looked for and none is there."
  },
  {
   "property": "C184",
   "status": "partial",
   "theorems": [
    "ELC.Arith.factor_table_partial",
    "ELC.Arith.unique_factor_table_partial",
    "ELC.Arith.factor_table_characterised",
    "ELC.Arith.factor_table_refuted"
   ],
   "note": "Every table that can be made is right and full; which numbers have one is characterised exactly: not 1, and not those whose factorisation does not end, like 137."
  },
  {
   "property": "C185",
   "status": "partial",
   "theorems": [
    "ELC.Sqrt.quick_sqrt_close_partial",
    "ELC.Sqrt.quick_sqrt_zero_refuted"
   ],
   "note": "Within 6.1% for every positive normal number of the three formats; not for zero and the numbers below the least normal one."
  },
  {
   "property": "C186",
   "status": "partial",
   "theorems": [
    "ELC.Sqrt.sqrt_returns",
    "ELC.Sqrt.sqrt_close",
    "ELC.Sqrt.sqrt_neighbours_partial",
    "ELC.Sqrt.sqrt_exact_partial",
    "ELC.Sqrt.sqrt_zero_refuted",
    "ELC.Sqrt.sqrt_small_refuted",
    "ELC.Sqrt.sqrt_nearest_refuted",
    "ELC.Sqrt.sqrt_const_close"
   ],
   "note": "Ends for every finite number, within 5 epsilon times the larger of 1 and the root; from 4 on it is one of the two neighbours of the root and exact where possible.  The root of zero is not zero, small numbers get proportionally bad roots and the result is not always the nearest number."
  },
  {
   "property": "C187",
   "status": "partial",
   "theorems": [
    "ELC.Sqrt.int_root_exact_partial",
    "ELC.Sqrt.int_root_bounds",
    "ELC.Sqrt.int_root_refuted",
    "ELC.Sqrt.is_prime_native",
    "ELC.Sqrt.native_root_suffices"
   ],
   "note": "Exact from 4 to 2^49, never too small below 2^64 and one too great near 2^64; that is enough for the test of primality, which is right for every 64-bit number."
  },
  {
   "property": "C188",
   "status": "partial",
   "theorems": [
    "ELC.Sqrt.quick_invsqrt_close_partial",
    "ELC.Sqrt.quick_invsqrt_small_refuted"
   ],
   "note": "Within 3.6% for every positive normal number of the three formats; not below the least normal number."
  },
  {
   "property": "C189",
   "status": "partial",
   "theorems": [
    "ELC.Sqrt.invsqrt_close_partial",
    "ELC.Sqrt.invsqrt_ends_partial",
    "ELC.Sqrt.invsqrt_large_partial",
    "ELC.Sqrt.invsqrt_ends_refuted"
   ],
   "note": "Whatever is returned is accurate; it returns within seven steps where the allowed change is at least five steps of the type in proportion, so with the epsilon of the type from 25 on.  With that epsilon the inverse root of 1/5 never returns in float and double, nor that of 1/31 in float128_t."
  },
  {
   "property": "C19",
   "status": "proved",
   "theorems": [
    "ELC.Numeral.from_string_error_iff",
    "ELC.Numeral.big_from_string_error_iff"
   ],
   "note": "Both directions, for native types of every width and for the splitting conversion."
  },
  {
   "property": "C190",
   "status": "partial",
   "theorems": [
    "ELC.Whole.trunc_right",
    "ELC.Whole.trunc_compiles",
    "ELC.Whole.ceil_characterised",
    "ELC.Whole.ceil_right_partial",
    "ELC.Whole.ceil_refuted",
    "ELC.Whole.floor_characterised",
    "ELC.Whole.floor_negative",
    "ELC.Whole.floor_right_partial",
    "ELC.Whole.floor_refuted"
   ],
   "note": "Truncation is right wherever it compiles; the ceiling is right unless a number is within epsilon above a whole one; the floor of a number from zero on that has a fraction, and of a negative whole number, is too low by one (2.5 gives 1, -2 gives -3)."
  },
  {
   "property": "C191",
   "status": "partial",
   "theorems": [
    "ELC.Series.pi_counts",
    "ELC.Series.series_rate",
    "ELC.Series.pi_rate_refuted",
    "ELC.Series.pi_half_rate_refuted",
    "ELC.Series.pi_rate_partial"
   ],
   "note": "The series gains fourteen digits for each term, but the root falls behind: after every number k of steps the result misses by more than 10^-(14k-8), infinitely often by more than 10^-(7k+3); it is always right to 10^-(6k-7)."
  },
  {
   "property": "C192",
   "status": "partial",
   "theorems": [
    "ELC.Numhash.ubig_hash_of_value",
    "ELC.Numhash.big_hash_of_value",
    "ELC.Numhash.frac_hash_partial",
    "ELC.Numhash.simplified_hash",
    "ELC.Numhash.frac_hash_refuted",
    "ELC.Numhash.small_frac_hash_characterised",
    "ELC.Numhash.opposite_hash_characterised",
    "ELC.Numhash.negative_zero_hash_refuted",
    "ELC.Numhash.mixed_hash_refuted",
    "ELC.Numhash.mixed_bucket_characterised",
    "ELC.Numhash.float_hash_characterised",
    "ELC.Numhash.float_hash_of_value",
    "ELC.Numhash.float_hash_refuted"
   ],
   "note": "Holds for big integers (minus zero too), for fractions in lowest terms and for native numbers that have a hash; fractions in other terms, native against big numbers, and floating point numbers up to minus one or from 2^64 on break it."
  },
  {
   "property": "C193",
   "status": "partial",
   "theorems": [
    "ELC.Shift.assign_partial",
    "ELC.Shift.shift_partial",
    "ELC.Shift.least_refuted",
    "ELC.Shift.int_assign_partial",
    "ELC.Shift.int_shift_partial",
    "ELC.Shift.big_count_characterised",
    "ELC.Shift.big_count_partial",
    "ELC.Shift.big_count_refuted",
    "ELC.Shift.by_int_partial"
   ],
   "note": "Holds for <<= and >>= by every native count but the least int or wider one, which is undefined; << and >> are also undefined where C11 says so. Counts that are big integers are taken modulo w*2^64, so a right shift by more leaves digits behind."
  },
  {
   "property": "C194",
   "status": "partial",
   "theorems": [
    "ELC.Die.die_shows",
    "ELC.Die.die_shows_refuted",
    "ELC.Die.windows_characterised",
    "ELC.Die.windows_partial",
    "ELC.Die.windows_long_refuted",
    "ELC.Die.linux_characterised",
    "ELC.Die.linux_refuted",
    "ELC.Die.linux_partial",
    "ELC.Die.linux_part_refuted",
    "ELC.Die.locale_characterised",
    "ELC.Die.locale_bad",
    "ELC.Die.no_message",
    "ELC.Die.empty_message"
   ],
   "note": "Holds on Windows for messages of less than 2048 UTF-16 units; longer ones write behind an array. On Linux the colour is changed with byte output, after which wide output fails: nothing of any reason is shown."
  },
  {
   "property": "C195",
   "status": "partial",
   "theorems": [
    "ELC.Term.read_restores",
    "ELC.Term.device_refuted",
    "ELC.Term.nested_partial",
    "ELC.Term.one_by_one",
    "ELC.Term.mode_characterised",
    "ELC.Term.threads_refuted",
    "ELC.Term.crash_refuted",
    "ELC.Term.crash_partial"
   ],
   "note": "Holds for reads one after the other and for nested ones. Two threads whose reads overlap otherwise, or the end of the program during a read, leave the mode for reading; NUL on Windows is undefined."
  },
  {
   "property": "C196",
   "status": "partial",
   "theorems": [
    "ELC.Term.write_partial",
    "ELC.Term.write_characterised",
    "ELC.Term.write_file_refuted",
    "ELC.Term.escapes_refuted"
   ],
   "note": "The mode is never changed. Writing to files on Windows uses a variable without a value, and escape sequences are enabled for every stream but those onto consoles."
  },
  {
   "property": "C197",
   "status": "partial",
   "theorems": [
    "ELC.Charat.get_char",
    "ELC.Charat.set_char",
    "ELC.Charat.history_char",
    "ELC.Charat.set_other_refuted",
    "ELC.Charat.index_other_refuted",
    "ELC.Charat.get_characterised",
    "ELC.Charat.set_characterised",
    "ELC.Charat.negative_refuted",
    "ELC.Charat.outlive_refuted",
    "ELC.Charat.shorter_refuted"
   ],
   "note": "Holds for integer positions inside the string and characters assigned, while the string is held and keeps its length. Other positions mean the first character, other values make the character 0, and a value that outlives its string is undefined."
  },
  {
   "property": "C198",
   "status": "partial",
   "theorems": [
    "ELC.Mixed.compare_characterised",
    "ELC.Mixed.equal_characterised",
    "ELC.Mixed.max_characterised",
    "ELC.Mixed.min_characterised",
    "ELC.Mixed.max_min_comm",
    "ELC.Mixed.max_min_partial",
    "ELC.Mixed.mixed_refuted",
    "ELC.Mixed.order_refuted"
   ],
   "note": "Right for any number of arguments if none is negative or all types have a sign. For two arguments it is characterised exactly when the answers are right; with three the order of the arguments matters."
  },
  {
   "property": "C199",
   "status": "partial",
   "theorems": [
    "ELC.Mixed.nan_max_characterised",
    "ELC.Mixed.nan_min_characterised",
    "ELC.Mixed.nan_list_characterised",
    "ELC.Mixed.nan_partial",
    "ELC.Mixed.nan_refuted"
   ],
   "note": "Right without NaN. max ignores everything behind a NaN, min is NaN exactly if the last is, the list forms exactly if the first is."
  },
  {
   "property": "C20",
   "status": "partial",
   "theorems": [
    "ELC.Numeral.fractional_digits_correct",
    "ELC.Numeral.builtin_brackets",
    "ELC.Numeral.expansion_text_determines",
    "ELC.Numeral.fractional_partial",
    "ELC.Numeral.fractional_characterised",
    "ELC.Numeral.fractional_refuted",
    "ELC.Numeral.fractional_zero"
   ],
   "note": "The digits are always right; the bracket is placed right exactly when the expansion is finite or starts repeating right after the point. A sixth is written 0.[1]."
  },
  {
   "property": "C200",
   "status": "partial",
   "theorems": [
    "ELC.Timer.timer_partial",
    "ELC.Timer.timer_refuted",
    "ELC.Timer.timer_characterised",
    "ELC.Timer.timer_running"
   ],
   "note": "Right if it is stopped only while it runs and resumed only while it stands; a second stop counts the pause, a resumption of a running timer takes the time since the last stop away. What it shows is given for every history."
  },
  {
   "property": "C201",
   "status": "partial",
   "theorems": [
    "ELC.Stdwrap.read_characterised",
    "ELC.Stdwrap.read_refuted",
    "ELC.Stdwrap.tell_characterised",
    "ELC.Stdwrap.dead_refuted",
    "ELC.Stdwrap.reads_partial",
    "ELC.Stdwrap.reads_ink",
    "ELC.Stdwrap.file_partial"
   ],
   "note": "False of streams as they are made: white space before each portion is skipped, asking for the position skips it too, and after a read beyond the end the stream cannot be used again. A stream without skipws is a file until then; only white space is ever lost."
  },
  {
   "property": "C202",
   "status": "partial",
   "theorems": [
    "ELC.Stdwrap.write_characterised",
    "ELC.Stdwrap.out_seek_characterised",
    "ELC.Stdwrap.out_dead_refuted",
    "ELC.Stdwrap.out_file_partial"
   ],
   "note": "A file as long as everything fits and no seek leads out of the text; after that nothing is written any more and no write says so."
  },
  {
   "property": "C203",
   "status": "partial",
   "theorems": [
    "ELC.Fill.fill_partial",
    "ELC.Fill.fill_characterised",
    "ELC.Fill.fill_float_characterised",
    "ELC.Fill.fill_refuted",
    "ELC.Fill.fill_undefined_refuted",
    "ELC.Fill.fill_number_characterised",
    "ELC.Fill.float_cut_characterised",
    "ELC.Fill.construct_other",
    "ELC.Fill.fill_one",
    "ELC.Fill.copy_characterised"
   ],
   "note": "True of integers and characters of every size and of all types whose size is neither 1 nor 4. False of float, which has the size of wchar_t: the value is converted to an integer and the bits of that integer are stored, so that only zero survives. Constructing from a temporary or a variable works for every type."
  },
  {
   "property": "C204",
   "status": "proved",
   "theorems": [
    "ELC.Insert.insert_correct",
    "ELC.Insert.insert_dead",
    "ELC.Insert.insert_pieces"
   ],
   "note": "For every string, every way of storing it, every width, alignment and room."
  },
  {
   "property": "C205",
   "status": "partial",
   "theorems": [
    "ELC.Assign.copy_apart",
    "ELC.Assign.copy_upwards_partial",
    "ELC.Assign.copy_downwards_characterised",
    "ELC.Assign.copy_overlap_refuted",
    "ELC.Assign.move_ranges",
    "ELC.Assign.fill_correct",
    "ELC.Assign.fill_renew_refuted"
   ],
   "note": "Holds for ranges that are apart. Bytes that overlap are undefined; other elements copied towards the front become the last elements of the source, repeated. may_overlap is right for bytes and compiles for nothing else."
  },
  {
   "property": "C206",
   "status": "partial",
   "theorems": [
    "ELC.Assign.way_characterised",
    "ELC.Assign.own_assignment_refuted"
   ],
   "note": "False for types whose copy constructor and destructor are trivial and whose assignment is not: their bytes are copied."
  },
  {
   "property": "C207",
   "status": "partial",
   "theorems": [
    "ELC.Bittext.text_denotes",
    "ELC.Bittext.text_bits_characterised",
    "ELC.Bittext.text_bits_partial",
    "ELC.Bittext.text_of_number",
    "ELC.Bittext.text_not_refuted"
   ],
   "note": "Every representation: a padded text of the stored number that reads back to the same bytes. Binary: the N bits when the unused bits of the last byte are zero. False after ~ and other operators that set unused bits: the text then has more than N characters."
  },
  {
   "property": "C208",
   "status": "partial",
   "theorems": [
    "ELC.Trig.tan_partial",
    "ELC.Trig.cot_partial",
    "ELC.Trig.sec_partial",
    "ELC.Trig.csc_partial",
    "ELC.Trig.converge",
    "ELC.Trig.poles_refuted",
    "ELC.Trig.pole_at_zero"
   ],
   "note": "The error is at most 3ε/cos², 3ε/sin², 2ε/cos² and ε/sin² where the divisor is large enough, so the results converge for every fraction in the domain. False for ε itself: half of the approximation of π has no tangent, whatever the precision."
  },
  {
   "property": "C209",
   "status": "proved",
   "theorems": [
    "ELC.Cast.maybe_use_correct",
    "ELC.Cast.was_an_correct",
    "ELC.Cast.const_use_correct",
    "ELC.Cast.other_nodes"
   ],
   "note": "For all hierarchies without virtual inheritance. use_by_ref_as of a node that is no T dereferences a null pointer."
  },
  {
   "property": "C21",
   "status": "proved",
   "theorems": [
    "ELC.Numeral.denominator_complement_correct",
    "ELC.Numeral.denominator_complement_complete"
   ],
   "note": ""
  },
  {
   "property": "C210",
   "status": "partial",
   "theorems": [
    "ELC.Asval.value_kept",
    "ELC.Asval.same_payload",
    "ELC.Asval.round_trip_partial",
    "ELC.Asval.round_trip_characterised",
    "ELC.Asval.round_trip_refuted"
   ],
   "note": "The payload is right for every type. Read back with its own type: true of char_t, int_t and uint_t. False of all other types, which come back as zero: use_as<int>(as_value(5)) is 0."
  },
  {
   "property": "C22",
   "status": "proved",
   "theorems": [
    "ELC.Literal.ubigint_literal_correct",
    "ELC.Literal.literal_digits_correct",
    "ELC.Literal.literal_accepted_digits"
   ],
   "note": "Over the digit-array arithmetic, for every digit width of at least two bits, any length."
  },
  {
   "property": "C23",
   "status": "proved",
   "theorems": [
    "ELC.Utf.encode_utf8_correct",
    "ELC.Utf.utf8_round_trip",
    "ELC.Utf.utf8_decode_canonical"
   ],
   "note": "Encoder, decoder and round trip for every code point and every byte sequence. Surrogate code points are accepted, as the property states."
  },
  {
   "property": "C24",
   "status": "proved",
   "theorems": [
    "ELC.Utf.utf16_round_trip",
    "ELC.Utf.encode_utf16_refuses",
    "ELC.Utf.utf16_decode_canonical",
    "ELC.Utf.utf16_surrogates_refuted"
   ],
   "note": "All scalar values; the last theorem shows why surrogates are excluded."
  },
  {
   "property": "C25",
   "status": "partial",
   "theorems": [
    "ELC.Utf.utf32_utf8_utf32",
    "ELC.Utf.utf32_utf16_utf32",
    "ELC.Utf.utf8_utf16_utf8",
    "ELC.Utf.utf8_to_utf32_prefix",
    "ELC.Utf.predicted_sizes_partial",
    "ELC.Utf.first_byte_size_correct",
    "ELC.Utf.utf8_to_utf32_size_characterised",
    "ELC.Utf.get_utf8_to_utf16_size_refuted",
    "ELC.Utf.utf16_to_utf8_code_size_refuted"
   ],
   "note": "Lossless conversion proved in full; size prediction proved for five of six functions, the sixth never returns a value."
  },
  {
   "property": "C26",
   "status": "proved",
   "theorems": [
    "ELC.Hash.hashArray_closed_form",
    "ELC.Hash.merge_hash_append",
    "ELC.Hash.with_calculated_before_append",
    "ELC.Hash.merge_hash_split_independent"
   ],
   "note": ""
  },
  {
   "property": "C27",
   "status": "proved",
   "theorems": [
    "ELC.Hash.repeat_times_eq_hash_replicate",
    "ELC.Hash.repeat_times_period"
   ],
   "note": ""
  },
  {
   "property": "C28",
   "status": "proved",
   "theorems": [
    "ELC.Sort.heapsort_sorts",
    "ELC.Sort.insertion_sort_sorts",
    "ELC.Sort.insertion_sort_stable",
    "ELC.Sort.quicksort_sorts",
    "ELC.Sort.introsort_sorts",
    "ELC.Sort.sorts_read_only_range",
    "ELC.Sort.sorts_unique"
   ],
   "note": ""
  },
  {
   "property": "C29",
   "status": "partial",
   "theorems": [
    "ELC.Search.match_finds_first",
    "ELC.Search.match_partial",
    "ELC.Search.match_padded",
    "ELC.Search.match_refuted",
    "ELC.Search.match_empty_refuted"
   ],
   "note": "When the pattern occurs, the first occurrence is returned and nothing outside the range is read, for every element hash. Otherwise the code may read behind the range: false as stated; proved in full for ranges followed by a readable pad that does not start with a pattern element."
  },
  {
   "property": "C30",
   "status": "partial",
   "theorems": [
    "ELC.Search.reverse_match_sound",
    "ELC.Search.reverse_match_suffix_partial",
    "ELC.Search.reverse_match_blocks_partial",
    "ELC.Search.reverse_match_single_characterised",
    "ELC.Search.reverse_match_refuted"
   ],
   "note": "Every returned position is an occurrence; the last occurrence is missed because the skips are too long. For patterns of one element it is given exactly what is looked at: the last element and every third one before it."
  },
  {
   "property": "C31",
   "status": "partial",
   "theorems": [
    "ELC.Search.in_range_correct",
    "ELC.Search.base_finds_correct",
    "ELC.Search.finds_partial",
    "ELC.Search.find_last_of_partial",
    "ELC.Search.find_last_of_characterised",
    "ELC.Search.finds_characterised",
    "ELC.Search.finds_refuted"
   ],
   "note": "All searches for types other than 64-bit integers, except the not-found case of find_last_of, which has no return; 64-bit integers are compared by their lowest byte."
  },
  {
   "property": "C32",
   "status": "partial",
   "theorems": [
    "ELC.Compare.compare_sized_correct",
    "ELC.Compare.compare_sized_zero_correct",
    "ELC.Compare.compare_part_correct",
    "ELC.Compare.compare_zeros_partial",
    "ELC.Compare.compare_zero_sized_characterised",
    "ELC.Compare.dictionary_unique",
    "ELC.Compare.by_length_unique",
    "ELC.Compare.dictionary_is_list_lt",
    "ELC.Compare.compare_refuted"
   ],
   "note": "Sized and sized/zero-terminated forms proved; the zero-terminated/sized forms test the wrong pointer, and the form for two zero-terminated arrays reads behind the end of a shorter second one."
  },
  {
   "property": "C33",
   "status": "proved",
   "theorems": [
    "ELC.Bits.rotl_bits",
    "ELC.Bits.rotr_bits",
    "ELC.Bits.rotr_rotl",
    "ELC.Bits.rotl_rotr",
    "ELC.Bits.rot_iterator_advance",
    "ELC.Bits.rot_iterator_dec_inc",
    "ELC.Bits.get_bitnum_correct",
    "ELC.Bits.countl_zero_correct",
    "ELC.Bits.countr_zero_correct",
    "ELC.Bits.countl_one_correct",
    "ELC.Bits.countr_one_correct",
    "ELC.Bits.counts_unique",
    "ELC.Bits.all_bit_is_one_correct",
    "ELC.Bits.all_bit_is_zero_refuted"
   ],
   "note": "Every operation named in the property is proved for every word size; the extra function all_bit_is_zero answers the opposite (refuted)."
  },
  {
   "property": "C34",
   "status": "partial",
   "theorems": [
    "ELC.Bits.bitset_set_get",
    "ELC.Bits.bitset_compound_get",
    "ELC.Bits.bitset_bitwise",
    "ELC.Bits.bitset_of_integer",
    "ELC.Bits.bitset_to_integer",
    "ELC.Bits.bitset_integer_round_trip",
    "ELC.Bits.bitset_eq_partial",
    "ELC.Bits.bitset_eq_refuted",
    "ELC.Bits.bitset_shift_partial",
    "ELC.Bits.bitset_shift_refuted",
    "ELC.Bits.bitset_shl_characterised",
    "ELC.Bits.bitset_shr_characterised",
    "ELC.Bits.bitset_shift_out_of_bounds"
   ],
   "note": "Indexing, bitwise operators and integer conversions proved for every size; equality only for N a multiple of 8 and shifts only for one byte, because the code is wrong otherwise (refuted with witnesses)."
  },
  {
   "property": "C35",
   "status": "partial",
   "theorems": [
    "ELC.Arith.integer_log_correct",
    "ELC.Arith.integer_log_native_partial",
    "ELC.Arith.integer_log_native_refuted",
    "ELC.Arith.integer_log_two_characterised",
    "ELC.Arith.pow_correct",
    "ELC.Arith.pow_signed_correct",
    "ELC.Arith.factorial_partial",
    "ELC.Arith.factorial_native_partial",
    "ELC.Arith.rising_one",
    "ELC.Arith.factorial_refuted"
   ],
   "note": "integer_log and pow proved for the unbounded integers; factorial whenever the 32-bit end of the range does not wrap; integer_log on native types only while squares of the arguments fit; to the base two exactly up to half the bits, above it never ends."
  },
  {
   "property": "C36",
   "status": "partial",
   "theorems": [
    "ELC.Arith.binary_gcd_partial",
    "ELC.Arith.binary_gcd_zero_characterised",
    "ELC.Arith.binary_gcd_refuted",
    "ELC.Arith.binary_gcd_small_correct",
    "ELC.Arith.binary_gcd_wide_refuted",
    "ELC.Arith.binary_gcd_processor_correct",
    "ELC.Arith.euclidean_gcd_partial",
    "ELC.Arith.euclidean_gcd_refuted",
    "ELC.Arith.euclidean_gcd_signed_refuted",
    "ELC.Arith.lehmer_gcd_correct",
    "ELC.Arith.lehmer_gcd_sound",
    "ELC.Arith.gcd_big_partial",
    "ELC.Arith.gcd_big_short"
   ],
   "note": "gcd of big integers of any size is right whenever the first number is not zero, if the divisions it makes deliver; the path for numbers of 256 digits and more is right whatever quotients it gets. gcd(0,y) below 256 digits loses the factors of two, and native types of 32 bits and more end in an undefined shift."
  },
  {
   "property": "C37",
   "status": "proved",
   "theorems": [
    "ELC.Arith.is_prime_correct",
    "ELC.Arith.root_exists"
   ],
   "note": "Given that the floating-point square root is not below the true one and is below n-2, which C187 proves for every 64-bit number."
  },
  {
   "property": "C38",
   "status": "partial",
   "theorems": [
    "ELC.Arith.prime_at_least_partial",
    "ELC.Arith.prime_above_partial",
    "ELC.Arith.prime_at_least_ge",
    "ELC.Arith.prime_at_least_refuted",
    "ELC.Arith.prime_at_most_characterised",
    "ELC.Arith.prime_at_most_partial",
    "ELC.Arith.prime_at_most_refuted",
    "ELC.Arith.prime_at_least_characterised",
    "ELC.Arith.prime_above_ends"
   ],
   "note": "Right unless the argument is a multiple of 6 (upwards) or the answer lies in the residues the rounding skips (downwards)."
  },
  {
   "property": "C39",
   "status": "partial",
   "theorems": [
    "ELC.Arith.factorize_sound_partial",
    "ELC.Arith.factorize_unique_sound_partial",
    "ELC.Arith.factorize_smooth_partial",
    "ELC.Arith.factorize_unique_smooth_partial",
    "ELC.Arith.factorize_refuted",
    "ELC.Arith.factorize_characterised",
    "ELC.Arith.factorize_unique_characterised",
    "ELC.Arith.visits_small",
    "ELC.Arith.factorize_signed_sound_partial",
    "ELC.Arith.factorize_unique_signed_sound_partial",
    "ELC.Arith.factorize_signed_characterised",
    "ELC.Arith.factorize_zero_refuted"
   ],
   "note": "Every returned factorisation is right; it returns exactly when all prime factors are met on the way from 2 by asking for the next prime, which holds for those below 137 and fails for 137."
  },
  {
   "property": "C40",
   "status": "partial",
   "theorems": [
    "ELC.Table.table_membership_correct",
    "ELC.Table.table_distinct_partial",
    "ELC.Table.table_recent_partial",
    "ELC.Table.table_characterised",
    "ELC.Table.table_order_refuted"
   ],
   "note": "Success of every search and removal is right for all histories, also with a changing hash; which of several records with one key is found is right until the table grows, which reverses their order."
  },
  {
   "property": "C41",
   "status": "partial",
   "theorems": [
    "ELC.Table.map_correct",
    "ELC.Table.map_equal_correct",
    "ELC.Table.map_equal_self_characterised",
    "ELC.Table.map_equal_self_refuted"
   ],
   "note": "Reads, shrink and comparison of two maps are right; m==m never returns when two non-default keys share a bucket."
  },
  {
   "property": "C42",
   "status": "partial",
   "theorems": [
    "ELC.Cow.handles_isolated_partial",
    "ELC.Cow.reference_isolated_partial",
    "ELC.Cow.handles_isolated_refuted"
   ],
   "note": "All histories over any value type. Three ways in which the full statement is false are shown (a reference kept across a copy; an equality that is not identity, as == merges storage; the constructor from arguments). Without these the handles behave as independent values and storage is kept exactly while shared."
  },
  {
   "property": "C43",
   "status": "partial",
   "theorems": [
    "ELC.Pool.pool_sound",
    "ELC.Pool.pool_defined_partial",
    "ELC.Pool.free_defined_characterised",
    "ELC.Pool.pool_defined_refuted",
    "ELC.Pool.free_available",
    "ELC.Pool.alloc_available",
    "ELC.Pool.shrink_keeps"
   ],
   "note": "The membership test covers only ment_size-1 bytes, so most slots cannot be given back: the first slot ever handed out never can, for any sizes. Everything else is proved for all histories."
  },
  {
   "property": "C44",
   "status": "partial",
   "theorems": [
    "ELC.Str.length_correct",
    "ELC.Str.index_correct",
    "ELC.Str.substring_correct",
    "ELC.Str.copy_part_clear_partial",
    "ELC.Str.copy_part_correct_partial",
    "ELC.Str.copy_prefix_correct_partial",
    "ELC.Str.flatten_clear_partial",
    "ELC.Str.flatten_correct_partial",
    "ELC.Str.hash_clear_partial",
    "ELC.Str.hash_correct_partial",
    "ELC.Str.continued_hash_partial",
    "ELC.Str.copy_part_refuted",
    "ELC.Str.flatten_refuted"
   ],
   "note": "For all trees of the ten node kinds: length, indexing and substring are right. Copying out a part and the hash start at the beginning of an insertion when the range starts inside it, so they are proved for trees where this cannot happen, and shown false otherwise."
  },
  {
   "property": "C45",
   "status": "partial",
   "theorems": [
    "ELC.StrEdit.push_back_correct",
    "ELC.StrEdit.push_front_correct",
    "ELC.StrEdit.push_back_string_correct",
    "ELC.StrEdit.push_front_string_correct",
    "ELC.StrEdit.pre_alloc_correct",
    "ELC.StrEdit.insert_string_correct",
    "ELC.StrEdit.erase_correct",
    "ELC.StrEdit.insert_correct_partial",
    "ELC.StrEdit.insert_shared_correct",
    "ELC.StrEdit.remove_front_characterised",
    "ELC.StrEdit.remove_front_owned_partial",
    "ELC.StrEdit.remove_back_partial",
    "ELC.StrEdit.remove_back_owned_partial",
    "ELC.StrEdit.pop_front_partial",
    "ELC.StrEdit.pop_back_partial",
    "ELC.StrEdit.pop_shared_correct",
    "ELC.StrEdit.assign_partial",
    "ELC.StrEdit.history_partial",
    "ELC.StrEdit.edit_result_partial",
    "ELC.StrEdit.insert_end_refuted",
    "ELC.StrEdit.insert_overlap_refuted",
    "ELC.StrEdit.remove_shared_refuted",
    "ELC.StrEdit.remove_back_inserted_refuted",
    "ELC.StrEdit.pop_front_head_refuted",
    "ELC.StrEdit.pop_back_end_refuted",
    "ELC.StrEdit.pop_back_sum_refuted",
    "ELC.StrEdit.pop_back_head_refuted",
    "ELC.StrEdit.pop_back_inserted_refuted",
    "ELC.StrEdit.assign_run_refuted",
    "ELC.StrEdit.assign_long_run_refuted",
    "ELC.StrEdit.assign_inserted_refuted"
   ],
   "note": "Pushes, insertion of a string, erasure and substring (C44) are right on every tree and sharing pattern. Insertion of characters, removal, popping and assignment are right on the trees that keep clear of eleven defects, each shown by a string edited wrongly; removal at the front is characterised exactly. The histories theorem covers any number of edits and any sharing in between."
  },
  {
   "property": "C46",
   "status": "partial",
   "theorems": [
    "ELC.Str.hash_clear_partial",
    "ELC.Str.hash_correct_partial",
    "ELC.Str.equal_strings_equal_hash_partial",
    "ELC.Str.equal_strings_equal_hash_refuted"
   ],
   "note": "For all trees in which no range starts inside an insertion; shown false otherwise."
  },
  {
   "property": "C47",
   "status": "proved",
   "theorems": [
    "ELC.LogicalBool.constants_val",
    "ELC.LogicalBool.toBool_iff",
    "ELC.LogicalBool.unknown_absorbing",
    "ELC.LogicalBool.and_is_glb",
    "ELC.LogicalBool.or_is_lub",
    "ELC.LogicalBool.not_val",
    "ELC.LogicalBool.eq_val",
    "ELC.LogicalBool.laws"
   ],
   "note": ""
  },
  {
   "property": "C48",
   "status": "partial",
   "theorems": [
    "ELC.Random.between_in_range",
    "ELC.Random.between_returns_partial",
    "ELC.Random.between_onto_partial",
    "ELC.Random.between_uniform",
    "ELC.Random.between_wide_refuted",
    "ELC.Random.between_empty_refuted",
    "ELC.Random.between_big_in_range",
    "ELC.Random.between_big_onto_partial",
    "ELC.Random.between_big_refuted"
   ],
   "note": "Values returned are always in range; all values are reachable and unbiased unless the bounds are at least half of a 32-bit or wider type apart (undefined for every generator) or, for big integers, the difference fills whole words; exclusive with equal bounds never returns."
  },
  {
   "property": "C49",
   "status": "proved",
   "theorems": [
    "ELC.Random.multiplier_value",
    "ELC.Random.generator_full_period",
    "ELC.Random.sow_full_period",
    "ELC.Random.draws_full_period",
    "ELC.Random.gen_in_range",
    "ELC.Random.gen_bool"
   ],
   "note": "The square root is a parameter of the multiplier computation."
  },
  {
   "property": "C50",
   "status": "partial",
   "theorems": [
    "ELC.Pushback.pushback_partial",
    "ELC.Pushback.read_prefix",
    "ELC.Pushback.pushback_refuted"
   ],
   "note": "All histories of read, unread and peek with the wrapped stream delivering in any portions. Growing the buffer passes the extra amount where the new size is expected, so the full statement is false: every history that comes to hold back more than 1024 elements is shown to be undefined once they are read back; every history that does not is shown correct."
  },
  {
   "property": "C51",
   "status": "partial",
   "theorems": [
    "ELC.Ptr.counted_sound_partial",
    "ELC.Ptr.counted_defined_partial",
    "ELC.Ptr.counted_no_leak",
    "ELC.Ptr.copy_target",
    "ELC.Ptr.assign_target",
    "ELC.Ptr.counted_defined_refuted",
    "ELC.Ptr.counted_sound_refuted"
   ],
   "note": "Objects with pointer members, pointer variables, and all operations on them. Two ways in which the full statement is false are shown: a weak member that leads back to an object being emptied, and a strong pointer assigned from a weak pointer to an emptied object. Without these, for all histories: objects are in use exactly while owned, stored exactly while pointed to, ended once, destroyed once."
  },
  {
   "property": "C52",
   "status": "proved",
   "theorems": [
    "ELC.Links.list_shows_live",
    "ELC.Links.sweep_shows"
   ],
   "note": "Every history of adding new nodes and destroying nodes in the list; also destroying nodes during a walk. No link of a node that does not exist is read or written."
  },
  {
   "property": "C53",
   "status": "proved",
   "theorems": [
    "ELC.Utf.utf8_to_utf32_prefix",
    "ELC.Utf.utf32_to_other_prefix",
    "ELC.Utf.utf8_to_utf16_prefix",
    "ELC.Utf.utf16_to_other_prefix"
   ],
   "note": "Longest valid prefix, its encoding, the returned position and the success flag, for every input."
  },
  {
   "property": "C54",
   "status": "partial",
   "theorems": [
    "ELC.Numeral.fraction_from_string_correct",
    "ELC.Numeral.fraction_to_string_correct",
    "ELC.Numeral.fraction_round_trip",
    "ELC.Numeral.signed_fraction_round_trip",
    "ELC.Numeral.comn_default_refuted"
   ],
   "note": "Holds for every representation whose sign characters are distinct from each other and from the digits, which includes all built-in ones; a default-constructed table representation uses the point for both the fractional sign and the division sign. Over exact big-integer arithmetic."
  },
  {
   "property": "C55",
   "status": "partial",
   "theorems": [
    "ELC.Numeral.signed_round_trip_partial",
    "ELC.Numeral.signed_characterised",
    "ELC.Numeral.signed_min_refuted",
    "ELC.Numeral.signed_plus"
   ],
   "note": "Every value but the smallest of types as wide as int or wider, whose absolute value is computed with overflow."
  },
  {
   "property": "C56",
   "status": "proved",
   "theorems": [
    "ELC.Literal.ubigfloat_literal_correct",
    "ELC.Literal.float_literal_octal_exponent",
    "ELC.Literal.float_literal_hex_exponent"
   ],
   "note": "Exponents with a leading zero are octal and hexadecimal exponents count powers of sixteen, which the statement says and the last two theorems show. The exponent and the fraction arithmetic are taken as exact."
  },
  {
   "property": "C57",
   "status": "partial",
   "theorems": [
    "ELC.Search.quick_unindex_partial",
    "ELC.Search.quick_unindex_characterised",
    "ELC.Search.quick_unindex_refuted"
   ],
   "note": "All integer types below 64 bits; for 64-bit types values are looked up by their lowest byte."
  },
  {
   "property": "C58",
   "status": "proved",
   "theorems": [
    "ELC.Compare.equal_correct",
    "ELC.Compare.reverse_correct"
   ],
   "note": ""
  },
  {
   "property": "C59",
   "status": "proved",
   "theorems": [
    "ELC.Compare.max_correct",
    "ELC.Compare.min_correct",
    "ELC.Compare.max_min_list_correct"
   ],
   "note": "Including which of several equal arguments is returned."
  },
  {
   "property": "C60",
   "status": "proved",
   "theorems": [
    "ELC.Arith.ceil_div_correct"
   ],
   "note": ""
  },
  {
   "property": "C61",
   "status": "partial",
   "theorems": [
    "ELC.StrCmp.equal_correct_partial",
    "ELC.StrCmp.equal_plain_correct_partial",
    "ELC.StrCmp.equal_view_correct_partial",
    "ELC.StrCmp.equal_text_correct_partial",
    "ELC.StrCmp.order_correct_partial",
    "ELC.StrCmp.order_view_correct_partial",
    "ELC.StrCmp.order_text_equal_correct_partial",
    "ELC.StrCmp.equal_text_refuted",
    "ELC.StrCmp.equal_empty_runs_refuted",
    "ELC.StrCmp.equal_erased_refuted",
    "ELC.StrCmp.order_substring_refuted",
    "ELC.StrCmp.order_inserted_refuted",
    "ELC.StrCmp.order_text_refuted"
   ],
   "note": "All pairs of trees that keep clear of six defects, each shown by a pair of strings compared wrongly: erasures behind other arrays, empty runs, the empty text, substrings ending with their text, equal insertion points, and order against zero-terminated text."
  },
  {
   "property": "C62",
   "status": "partial",
   "theorems": [
    "ELC.Str.print_correct_partial",
    "ELC.Str.print_refuted"
   ],
   "note": "All trees where erasures behind other characters sit on one array; shown false otherwise."
  },
  {
   "property": "C63",
   "status": "partial",
   "theorems": [
    "ELC.Text.read_correct",
    "ELC.Text.substring_correct",
    "ELC.Text.of_run_correct",
    "ELC.Text.resize_with_correct",
    "ELC.Text.resize_correct",
    "ELC.Text.pad_correct",
    "ELC.Text.edit_short_correct",
    "ELC.Text.edit_partial",
    "ELC.Text.storage_refuted",
    "ELC.Text.insert_text_partial"
   ],
   "note": "Reading, substrings, resizing and padding for all strings; edits of short strings for all arguments; edits of nodes on the trees of C45."
  },
  {
   "property": "C64",
   "status": "partial",
   "theorems": [
    "ELC.Text.equal_partial",
    "ELC.Text.equal_short_characterised",
    "ELC.Text.equal_terminated_partial",
    "ELC.Text.order_partial",
    "ELC.Text.order_terminated_short_correct",
    "ELC.Text.equal_short_refuted",
    "ELC.Text.equal_char_refuted",
    "ELC.Text.order_short_refuted"
   ],
   "note": "Right when nodes are as C61 asks and short strings have equal lengths or a common difference; otherwise \"ab\" == \"abc\" and the first string is changed to \"abc\"."
  },
  {
   "property": "C65",
   "status": "partial",
   "theorems": [
    "ELC.Text.push_view_correct",
    "ELC.Text.push_run_correct",
    "ELC.Text.plus_correct",
    "ELC.Text.push_string_characterised",
    "ELC.Text.push_string_operand_partial",
    "ELC.Text.push_string_shares",
    "ELC.Text.self_add_characterised",
    "ELC.Text.push_string_operand_refuted",
    "ELC.Text.self_add_refuted"
   ],
   "note": "Results are right for all strings; exactly when the operand is changed and when adding a string to itself fails is characterised."
  },
  {
   "property": "C66",
   "status": "partial",
   "theorems": [
    "ELC.Text.hash_characterised",
    "ELC.Text.hash_agrees_partial",
    "ELC.Text.hash_refuted"
   ],
   "note": "All strings but single characters, whose hash is not that of the one-element array; node trees as in C46."
  },
  {
   "property": "C67",
   "status": "partial",
   "theorems": [
    "ELC.Text.find_partial",
    "ELC.Text.find_from_characterised",
    "ELC.Text.find_string_partial",
    "ELC.Text.find_view_characterised",
    "ELC.Text.find_from_refuted"
   ],
   "note": "Searches from the start, and for strings in nodes from any start; a search for a character or compile-time text from a start answers relative to it."
  },
  {
   "property": "C68",
   "status": "partial",
   "theorems": [
    "ELC.Text.replace_range_correct",
    "ELC.Text.replace_char_partial",
    "ELC.Text.replace_string_partial",
    "ELC.Text.replace_char_refuted",
    "ELC.Text.replace_char_characterised"
   ],
   "note": "Ranges for all strings; strings in nodes: all occurrences; a character: ends exactly if the string has it at most once, and is right then."
  },
  {
   "property": "C69",
   "status": "partial",
   "theorems": [
    "ELC.Text.starts_ends_view_partial",
    "ELC.Text.starts_ends_string_partial",
    "ELC.Text.ends_with_run_characterised",
    "ELC.Text.ends_with_run_partial",
    "ELC.Text.ends_with_run_refuted"
   ],
   "note": "Views and strings on trees without inner erasures and empty runs; the version for a run is characterised and wrong."
  },
  {
   "property": "C70",
   "status": "partial",
   "theorems": [
    "ELC.Text.data_partial",
    "ELC.Text.c_str_characterised",
    "ELC.Text.pointers_plain_correct",
    "ELC.Text.write_through_partial",
    "ELC.Text.write_through_refuted",
    "ELC.Text.c_str_refuted",
    "ELC.Text.view_refuted"
   ],
   "note": "All trees that can be copied flat (C44); single characters have no terminator; a cached hash survives a write."
  },
  {
   "property": "C71",
   "status": "partial",
   "theorems": [
    "ELC.Text.split_characterised",
    "ELC.Text.split_refuted"
   ],
   "note": "The function is characterised for every string, index and delimiter: it does not give the parts."
  },
  {
   "property": "C72",
   "status": "partial",
   "theorems": [
    "ELC.Text.assign_self_characterised",
    "ELC.Text.of_iterators_characterised",
    "ELC.Text.assign_self_refuted",
    "ELC.Text.of_iterators_refuted"
   ],
   "note": "Characterised: a string with an exclusive node is destroyed by self-assignment; an empty iterator range has no result."
  },
  {
   "property": "C73",
   "status": "proved",
   "theorems": [
    "ELC.Arr.array_history",
    "ELC.Arr.array_for_each"
   ],
   "note": "All element kinds and allocator choices; the hypothesis is that the specification allows each operation."
  },
  {
   "property": "C74",
   "status": "proved",
   "theorems": [
    "ELC.Arr.array_blocks",
    "ELC.Arr.array_no_leak",
    "ELC.Arr.array_history"
   ],
   "note": "Faults include double destruction, leak of living elements and construction over living ones."
  },
  {
   "property": "C75",
   "status": "partial",
   "theorems": [
    "ELC.Arr.array_self_source_characterised",
    "ELC.Arr.push_own_element_refuted",
    "ELC.Arr.insert_own_elements_refuted"
   ],
   "note": "Characterised: use after free whenever the type has a destructor or the block moves; otherwise pushes and appends are right."
  },
  {
   "property": "C76",
   "status": "partial",
   "theorems": [
    "ELC.Arr.remove_characterised",
    "ELC.Arr.remove_refuted",
    "ELC.Arr.remove_only_refuted"
   ],
   "note": "Right only when at most one element follows and one is left; faults or a dangling array otherwise."
  },
  {
   "property": "C77",
   "status": "partial",
   "theorems": [
    "ELC.Arr.array_history",
    "ELC.Arr.part_used_insert",
    "ELC.Arr.part_used_forward_insert",
    "ELC.Arr.forward_insert_nothing_characterised",
    "ELC.Arr.forward_insert_resize_refuted",
    "ELC.Arr.part_used_insert_refuted",
    "ELC.Arr.part_used_insert_whole",
    "ELC.Arr.part_used_insert_characterised",
    "ELC.Arr.part_used_forward_insert_objects_refuted"
   ],
   "note": "Whole blocks in array_history; blocks used in part for types without default values; otherwise refuted."
  },
  {
   "property": "C78",
   "status": "partial",
   "theorems": [
    "ELC.Val.reads_end",
    "ELC.Val.value_readable",
    "ELC.Val.values_history_partial",
    "ELC.Val.ref_to_characterised",
    "ELC.Val.values_history_refuted"
   ],
   "note": "Reads always end. Values are names for places as long as a value whose place is given up has been used since the last time its place was given up; otherwise refuted, and ref_to is characterised."
  },
  {
   "property": "C79",
   "status": "partial",
   "theorems": [
    "ELC.Val.read_keeps",
    "ELC.Val.read_harmless_partial",
    "ELC.Val.read_harmless_refuted"
   ],
   "note": "A read keeps what every value reads at once; it can change what later rebindings do."
  },
  {
   "property": "C80",
   "status": "partial",
   "theorems": [
    "ELC.Val.special_init_partial",
    "ELC.Val.special_init_characterised",
    "ELC.Val.special_init_refuted"
   ],
   "note": "True until a special_init value is itself given up for another one."
  },
  {
   "property": "C81",
   "status": "partial",
   "theorems": [
    "ELC.Val.code_list_characterised",
    "ELC.Val.code_list_result_partial",
    "ELC.Val.code_list_answer_refuted",
    "ELC.Val.code_list_return_refuted",
    "ELC.Val.code_list_others_refuted",
    "ELC.Val.code_list_call_refuted"
   ],
   "note": "The right value is given at the time; it lives in the shared null data, so later code lists change it."
  },
  {
   "property": "C82",
   "status": "partial",
   "theorems": [
    "ELC.Node.eq_symmetric",
    "ELC.Node.eq_characterised",
    "ELC.Node.eq_equivalence",
    "ELC.Node.eq_hash",
    "ELC.Node.eq_types_refuted",
    "ELC.Node.eq_self_refuted"
   ],
   "note": "For payload types whose == is an equivalence that hashes respect. Two binary nodes of different types are compared as if of one type (undefined); a payload that does not equal itself makes a node that does not."
  },
  {
   "property": "C83",
   "status": "partial",
   "theorems": [
    "ELC.Node.equal_symmetric",
    "ELC.Node.equal_characterised",
    "ELC.Node.equal_equivalence_partial",
    "ELC.Node.equal_transitive_refuted",
    "ELC.Node.equal_self_refuted",
    "ELC.Node.equal_hash_refuted"
   ],
   "note": "Heaps with one payload type. Equivalence apart from t, which equals every node; functions without == do not equal themselves; hashes are by address."
  },
  {
   "property": "C84",
   "status": "partial",
   "theorems": [
    "ELC.Node.list_items",
    "ELC.Node.list_keeps",
    "ELC.Node.lists_equal_characterised",
    "ELC.Node.lists_equal_refuted"
   ],
   "note": "Items and frame for all lists; equality of lists is characterised and holds only for lists of at most one item."
  },
  {
   "property": "C85",
   "status": "partial",
   "theorems": [
    "ELC.Node.pair_index_characterised",
    "ELC.Node.pair_index_partial",
    "ELC.Node.pair_index_refuted"
   ],
   "note": "Characterised for every reachable state of the values: the parts are lost unless they were bound to other values and not used since."
  },
  {
   "property": "C86",
   "status": "partial",
   "theorems": [
    "ELC.Node.kept_holds_partial",
    "ELC.Node.kept_again",
    "ELC.Node.kept_holds_refuted",
    "ELC.Node.kept_undefined_refuted"
   ],
   "note": "For payload types whose == is an equivalence; false when the kept node was replaced by a node of another kind and the payload is the default."
  },
  {
   "property": "C87",
   "status": "partial",
   "theorems": [
    "ELC.Gc.collect_exact",
    "ELC.Gc.collect_partial",
    "ELC.Gc.collect_circle_refuted",
    "ELC.Gc.collect_chain_refuted"
   ],
   "note": "Whatever ends is right; it ends when nothing points to garbage. Every circle of garbage leads to a second destruction or a use of a destroyed object, and so can a chain."
  },
  {
   "property": "C88",
   "status": "partial",
   "theorems": [
    "ELC.Gc.roots_partial",
    "ELC.Gc.roots_dropped_refuted",
    "ELC.Gc.roots_copied_refuted",
    "ELC.Gc.roots_characterised"
   ],
   "note": "True exactly if no root pointer made from a pointer is destroyed and each existing copy points where one that was made does."
  },
  {
   "property": "C89",
   "status": "partial",
   "theorems": [
    "ELC.Gc.run_characterised",
    "ELC.Gc.success_partial",
    "ELC.Gc.success_refuted"
   ],
   "note": "For types added once; false for a type added twice."
  },
  {
   "property": "C90",
   "status": "partial",
   "theorems": [
    "ELC.Func.names_partial",
    "ELC.Func.undefined_characterised",
    "ELC.Func.destroyed_once",
    "ELC.Func.call_shared",
    "ELC.Func.equal_characterised",
    "ELC.Func.moved_characterised",
    "ELC.Func.deep_copy_characterised",
    "ELC.Func.replaced_refuted",
    "ELC.Func.deep_copy_refuted",
    "ELC.Func.equal_self_refuted"
   ],
   "note": "Holds for every program in which nothing undefined happens, and it is said exactly when that is; false for a function that its own callable replaces while it runs, for deep_copy (shares the state), and for equality with itself when the callable has no ==."
  },
  {
   "property": "C91",
   "status": "partial",
   "theorems": [
    "ELC.Func.pointer_partial",
    "ELC.Func.pointer_characterised",
    "ELC.Func.pointer_refuted",
    "ELC.Func.new_thread_partial",
    "ELC.Func.new_thread_refuted",
    "ELC.Func.own_pointer"
   ],
   "note": "True while the function names the same callable, and for the first call in another thread; false after an assignment to the function and for the second call."
  },
  {
   "property": "C92",
   "status": "partial",
   "theorems": [
    "ELC.Float.decompose_partial",
    "ELC.Float.decompose_refuted",
    "ELC.Float.decompose16_characterised"
   ],
   "note": "True of float, double and float128_t for every finite number; false of the two 16 bit types, whose constants are wrong."
  },
  {
   "property": "C93",
   "status": "partial",
   "theorems": [
    "ELC.Float.make_float_partial",
    "ELC.Float.make_float_exact_partial",
    "ELC.Float.make_get_correct",
    "ELC.Float.make_float_zero_characterised",
    "ELC.Float.make_float_overflow_refuted",
    "ELC.Float.make_float_underflow_refuted",
    "ELC.Float.make_float_small_refuted"
   ],
   "note": "In the range of float, double, float128_t: the neighbour below, exact when there is one; above the range the result is zero and far below it the behaviour is undefined, for every argument; false of the 16 bit types."
  },
  {
   "property": "C94",
   "status": "partial",
   "theorems": [
    "ELC.Float.to_native_exact_partial",
    "ELC.Float.to_native_neighbour_partial",
    "ELC.Float.to_native_zero_characterised",
    "ELC.Float.to_native_nearest_refuted",
    "ELC.Float.to_native_ones_refuted",
    "ELC.Float.to_native_overflow_refuted",
    "ELC.Float.to_native_underflow_refuted"
   ],
   "note": "Exact when the type has the number, else one of the two neighbours in the range; not the nearest one, zero for integers whose leading digits are ones, zero above and undefined below the range."
  },
  {
   "property": "C95",
   "status": "partial",
   "theorems": [
    "ELC.Float.to_big_correct",
    "ELC.Float.to_fraction_characterised",
    "ELC.Float.to_fraction_exact_partial",
    "ELC.Float.to_fraction_defined_partial",
    "ELC.Float.round_trip_partial",
    "ELC.Float.to_fraction_exact_refuted",
    "ELC.Float.to_fraction_tiny_refuted",
    "ELC.Float.round_trip_refuted"
   ],
   "note": "The integer part is right for every number; the fraction is the number or a small fraction that rounds to it (exactly said when defined and exact); false for 0.1, undefined for every positive number up to 2^-64; the round trip is at most one place off."
  },
  {
   "property": "C96",
   "status": "partial",
   "theorems": [
    "ELC.Float.read_exact_partial",
    "ELC.Float.read_neighbour_partial",
    "ELC.Float.read_nearest_refuted",
    "ELC.Float.read_range_refuted"
   ],
   "note": "A text of a number the type has is read as this number, others in the range as a neighbour; \"0.1\" is not read as the nearest, large numbers are read as zero and tiny ones undefined."
  },
  {
   "property": "C97",
   "status": "partial",
   "theorems": [
    "ELC.FloatText.text_integer_partial",
    "ELC.FloatText.text_characterised",
    "ELC.FloatText.text_close_partial",
    "ELC.FloatText.text_odd_partial",
    "ELC.FloatText.text_reads_back_partial",
    "ELC.FloatText.text_ends",
    "ELC.FloatText.text_sixth_refuted",
    "ELC.FloatText.text_reads_back_refuted",
    "ELC.FloatText.text_size_refuted",
    "ELC.FloatText.text_tiny_refuted",
    "ELC.FloatText.text_binary_refuted"
   ],
   "note": "Printing always ends. Integers below 2^64 print exactly and read back; from one on the text denotes a number next to the printed one and reads back at most one place off. False for fractions whose denominator shares a factor with the radix (1/6 prints 1/15), for 0.1+0.2, for 2^64 and for tiny numbers (undefined)."
  },
  {
   "property": "C98",
   "status": "partial",
   "theorems": [
    "ELC.FloatText.integer_log_correct",
    "ELC.FloatText.integer_log_native_partial",
    "ELC.FloatText.integer_log_native_refuted",
    "ELC.Arith.integer_log_two_characterised"
   ],
   "note": "True of big integers, and of native integers with at most half the bits; to the base two it returns exactly for the numbers of at most half the bits."
  },
  {
   "property": "C99",
   "status": "proved",
   "theorems": [
    "ELC.Chars.class_reads_inside",
    "ELC.Chars.class_beyond"
   ],
   "note": "By evaluation of the whole table in the kernel, block by block."
  }
 ]
}