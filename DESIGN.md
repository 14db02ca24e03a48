# Formal model of ringing-lib in Lean 4: design

## Trusted base

* Lean 4.33.0's kernel. Theorems depend on at most `propext`, `Classical.choice`, `Quot.sound`
  (no axioms of our own, no compiled-code tactics).
* The hand-written model: every definition in `Verif/Model/*.lean` cites the file and lines of
  `/repo` it transcribes. Nothing ties model and code mechanically; the code is not run.
* The build configuration modelled: `RINGING_USE_EXCEPTIONS = 1`, `RINGING_BELL_BITS = CHAR_BIT = 8`,
  `int`/`unsigned` 32 bits, `size_t` 64 bits, the default bell symbol table
  `1234567890ETABCDFGHJKLMNPQRSUVWYZ` (33 symbols), "C" locale for `isalnum`/`isspace`/`toupper`.
* The C++ standard library (vector, list, set, map, multimap, sort, next_permutation, rotate) is
  modelled by its specification (e.g. `std::set` = strictly sorted list, `std::sort` = *any* sorted
  permutation where the order of ties matters, `multimap::insert` with hint = insertion at *any*
  position of the equal range).

## Layout

* `lean/Verif/Model/*` - transcription of the code, definitions only, with citations.
* `lean/Verif/Lemmas/*` - helper lemmas.
* `lean/Verif/Props/*` - the property theorems (`C01_...`), each with `example`s showing the
  hypotheses are met by concrete non-trivial cases, and refutations (`..._false`) where the code
  violates the stated property.
* `MANIFEST.json` maps properties to theorem names; `seeded/LOG.jsonl` logs mutation experiments.

## Modelling conventions

* A `bell` is a `Nat`; conversions from `int` go through `toBell i = i mod 256` (`bell.h:76-77`).
* A `row` is the list of its data; `Row.Valid` = permutation of `0..n-1` with `n <= 256` (what
  `row::validate` enforces on 8-bit bells).
* A `change` is `(n, swaps)`; `Change.WF` = swaps strictly increasing with gaps >= 2, each `s+2 <= n`,
  and `n <= 255` (at 256 the 8-bit loops of `change::places` do not terminate).
* `Out α` = `ok a | throw e | ub`: undefined behaviour (out-of-bounds, end-iterator dereference,
  division by zero) is a distinct outcome. Functions that can hit UB on objects satisfying their
  class invariants return `Out`. For core row arithmetic there is both a checked (`Out`) version and a
  pure one, and C49 proves they agree and never hit UB on valid rows.
* `for`/`while` loops become structural recursion or folds, or well-founded recursion.

## What is modelled and what is not

Modelled (function by function, citations in the model): ringing/ `bell`, `row`, `change`, `place_notation.h`, `method`,
`extent`, `group`, `proof`, `falseness` with `falseness.dat`, `multtab`, `touch`, `search_base`, `basic_search`, `table_search`,
`music`, `row_wildcard`, `mathutils`, `pointers.h`, `litelib`, `mslib`, `library` (`library_base`), `methodset`, `method_stream`, `dimension`,
the parts of `lexical_cast` and `streamutils` they use; apps/gsiril `expression`, `functions`, `proof_context`,
`symbol_table`, `expr_base`, `statement` (`execute`), `execution_context`, `gsiril.init`, of `parser` the reading of tokens (`mstokeniser` and apps/utils
`tokeniser`), of statements from tokens (`msparser`) and `run`, of `main` what follows the reading of the arguments, with the literals of `expression`; apps/methsearch `methodutils`, `falseness`, of `music` which rows are analysed and the score (not the options), of `mask` the expanding of blocks, the checks of symmetries and the changes at each position (not the reading of the text of a mask), and of `search` the recursion with its symmetries, the limit, --start-at and --prefix, and of the tests of a change those for consecutive blows, repeated changes, lead ends and 78 places (the tests of rows and whole leads are parameters; not --random, --filter, status and timeouts); of apps/utils `row_calc` the reading of an expression from its tokens and its evaluation (not the tokens, the reading of a row, files and commands); of apps/touchsearch `join_plan_search` the recursion and the order of its nodes (not the table of rows, the numbering of methods, or an outputer that stops the search), and of its `main` the line printed for a touch; of apps/extent what follows the parsing of the arguments; of apps/musgrep the loop over the rows (not the scores); the trimming of apps/utils `stringutils`; of apps/splices `save_splice`.

Not modelled: printing (`print*`, `printm`, `pdf_fonts`, and of `dimension` `in_points` and `set_float`), XML (`xmllib`, `xmlout`, `dom*`), `cclib`, `peal`, files and environment (a
file is its contents), of gsiril the arguments, the console and the search for modules, the other programs under apps/ unless a
model file of that name exists.

## Findings (code violating the stated property; each gets a refutation theorem)

1. `change::swappair` (change.cpp:187-192): when the swap at `which-1` is present and is the last one,
   `*s++ = which; if (*s == ...)` dereferences the end iterator: UB (C14).
2. `method::methclass` (method.cpp): `for (hb = 0; lhr[hb] != hb && hb < n; ++hb)` reads `lhr[n]`
   for methods without a hunt bell; `lhr[i] == i && i < n` likewise for a rounds lead head (C22).
   `hasdodges` on an empty method computes `i % 0`.
3. `extent_iterator::operator--` on the end iterator never clears `end_` (C24).
4. `factorial` is 32-bit: `nth_row_of_extent` is wrong for nw >= 14 (C23).
5. `prover::create_branch` does not copy `falsec`: a branch of a false prover claims truth (C28).
6. `remove_row` leaves stale failinfo entries; it erases the oldest, not newest, line (C29).
7. `proof::prove` stops feeding rows after the first failure even in full mode
   (`istrue = istrue && add_row(..)`), so `failed()` describes only the first repeat (C30).
8. `falseness_table(method, half_lead_only)`: the row_block is already halved, and `init` halves it
   again (C34).
9. `basic_search::is_really_canonical` is weaker than "is a necklace": 0 1 1 0 1 is accepted although
   0 1 0 1 1 is its least rotation, so the touch is output twice (C40). Same in table_search.
10. `music_node::match` reads `r[pos]` with `pos == r.bells()` at every full-length leaf (C42).
11. `read_bell_expr` dereferences `last` (C18); harmless NUL for `char const*`, UB for string iterators.
12. `row_block(c, half_lead_only|no_final_lead_head)` with exactly one change writes element 0 of an
    empty vector (C47).
13. `bell::read_extended` accepts `{0}` as bell 255; `is_symbol('\0')` is true (C09).
14. `touch_child_list` iteration never ends for a count of 0 and dereferences the end of an empty
    child (C37).
15. `basic_search` never passes `no_fixed_treble`: if a call or the lead head moves the treble it can
    output false touches (C38).
16. `table_search`'s legacy constructors leave `lenrange`/`f` uninitialised or use `f` before
    initialisation (C41).
17. `row::power`: `n % order()` need not decrease `n`: infinite recursion iff bells^2 < n and
    bells^2 < n % order (first at 19 bells, order 420, power(400)) (C04).
18. `row(int)` is not validated: more than 256 bells gives a non-row (C03).
19. `read_extended` accepts `{}` as well as `{0}` as bell 255 (C09).
20. `conjugator` throws above 33 bells; `are_conjugate` is false for rows on different numbers of
    bells even if they are conjugate as permutations (C08).
21. `read_bell_expr` never closes nested braces (C18).
22. `method::format` with `M_OMIT_LH` on an empty method reads outside the method (C17).
23. `methclass` reads one past the end of the lead head for every principle and every method with
    lead head rounds; the result does not depend on the value, except before 2019 on one bell (C22).
    `hasdodges`, `issym(bell)` divide by zero on an empty method. `maxblows` is -1 if no place is made.
24. `methclass` ignores dodges of bell 0 when the hunt bell is not the treble; treble dodging section
    ends assume symmetry about the half lead even if the symmetry point differs (modelled as is).
25. `position_in_extent` reads beyond short rows when there are tenors (C23).
26. `nth_row_of_extent` at nh+nw = 256: the 8-bit bell loop wraps (excluded, C23).
27. `changes_iterator` also visits the identity change (C26).
28. `landau(0)` casts NaN to unsigned; `next_prime` of the last 32-bit prime wraps around to 2 (C44).
29. The constructors of `proof` call `prove` before the member `where` is constructed (`istrue` is
    declared first, proof.h:231-232): UB for a false touch in full mode, and `failed()` is always empty
    after construction (C30).
30. Failure information on a branch omits the lines before the branch (C29).
31. `group::conjugate` by a row on more bells than the group leaves `bells()`, the orbits and
    `invariants()` at the old number of bells (C32_conjugate_longer).
32. `group::rcoset_label` for a row not on the group's number of bells: through the fast path it throws
    `row::invalid` (longer rows) or writes out of bounds (shorter rows) (C33_rcoset_longer/shorter).
33. `is_direct_product_of_symmetric_groups` uses 32-bit factorials, wrapped for orbits of 13 to 20 bells
    (harmless for groups of fewer than 109641728 elements, C33).
34. `group::dihedral_r(n)` for even n has order n, not the documented 2n: reverse rounds is a power of the
    plain hunt (C51_dihedral_r_even).
35. With `half_lead_only` the tables of methods use only a quarter of each lead: `row_block` and
    `falseness_table::init` both halve (C34_methods with `Falseness.used`); a method of one change is UB.
36. The default constructor of `falseness_table` leaves `flags` uninitialised and `generate_group` reads it.
37. `false_courses` never returns for methods with a false lead from which the tenor cannot be brought home,
    such as Grandsire Doubles (C35_diverges).
38. `multtab` with a post group, whose purpose is to let products leave the listed rows: if the product
    precedes its class's representative, `make_representative` returns the product itself, it is not in
    `finder`, and the table silently says index 0, rounds (C36_post_group_false). If the rows are closed under
    the post group the assertion in `init` fails instead.
39. Iterating a touch: an empty child is dereferenced (UB), a child with a repeat count of 0 or less is
    repeated until `count` overflows (C37_empty_child, C37_no_repeats).
40. A search with a method of one change makes touches with an empty child, which cannot be iterated over
    (C38_one_change). A method on no bells is UB in the falseness table.
41. `table_search(meth, calls, bool)` leaves the range at (0,0), so it finds nothing.
42. `touch_search` stores copies of the touch that share the head node with the search, so all stored touches
    become the last one output (not modelled; here an outputer gets the value).
43. `table_search` with several parts compares the part ends only with the falseness of the first lead
    (`impossible`), not of later ones: a row that occurs in the same lead of two parts goes unnoticed, and a false
    touch is output (`C41_parts_false`: four bells, 24 rows). The comparison is also never made when the part
    ends are on fewer bells than the method, since the rows compared then have different lengths.
44. `table_search` with `mutually_true_parts` and an odd part end, all lead heads being even, outputs touches whose
    parts are false against each other: the falseness table has only even rows (`C41_odd_part_end`).
45. `table_search` with `non_round_blocks`, one part and without `ignore_rotations` also outputs the rotations of
    blocks that are not round, which may be false (`C41_block_rotations`).
46. `table_search` with part ends that move the treble although all leads keep it fixed: the table of rows does
    not contain the products (assertion in `multtab`), not in the model's hypotheses.
47. Music patterns with an inner or leading star do not match if the last star has to be empty: `12*34` for 1234,
    and "runs at the back" of all bells are never found (`C42_empty_star`).
48. `*1*` on eight bells misses the treble in 7ths and 8ths place: a star that is not the last is followed
    only while the rest of the pattern has at least as many characters as the position (`mds.size() - i >= pos`).
    The same holds for runs of three anywhere on twelve bells (`C42_missed`; the exact bound is `Spec.Window`).
49. A row is counted once for each way of matching: `**` on four bells counts five times (`C42_counted_twice`).
50. A pattern for one more bell than there are can match the memory behind the row (`pos > bells` should be
    `pos >= bells`), `C42_too_long`; every pattern matched to the last bell reads `r[bells]` (`C42_reads_behind`).
51. `music::clear` empties the tree of patterns but not the list of patterns (`C42_clear`).
52. `row_wildcard::count` counts rows that do not exist if a bell is named twice outside sets, or in a set and
    later outside one: `11*` on four bells is 2, `[12]1` is 4 (`C43_named_twice`).
53. With only sets or question marks between two stars `count` takes off each row once for every pair of ways
    in which it matches, so a row with three ways counts 0 and one with more counts less than 0: `*[345]*` on
    five bells gives 0, `*?*` gives 2^64 - 600 (`C43_unanchored`); two sets can make it throw (`C43_throws`:
    `make_intersection` tests `a_bell && a_bell`, and a bell against a set is never looked at).
54. A pattern longer than the row has a nonzero count, and the number of bells given to `count` is not checked
    against the bells named (`C43_too_long`); `[Ee]*` counts rows twice (`C43_both_cases`).
55. `method::classname` for a class number whose low four bits are 11 dereferences a null pointer (the table has
    twelve entries, eleven initialised), and for 12 to 15 reads behind the table (`C54_classname`).
56. `method::stagename` cuts numbers of more than seven digits: 10000000 and 10000001 have the same name
    (`C54_stage_injective`).
57. `method::lhcode` on a method with no bells passes the test for regularity (`ispblh` of the empty row is 1) and
    then reads `lhr[0]` behind the end (`C55_empty`).

58. `music::set_bells` (music.cpp) changes the number of bells but leaves the search structure as it was built for the old one: patterns without a star keep the old padding (C42_set_bells_stale).
59. `landau(0)` converts a NaN to `unsigned` (log 0 = −∞, 0·−∞ = NaN); undefined, outside the model. From n = 120 on the 32-bit result cannot be right (C50_overflow).

60. `shared_pointer::reset` on a default-constructed pointer: if `new int(0)` throws, the handler executes `++*rc` with `rc` null (pointers.h:251) (C56_shared_oom_false).
61. gsiril's `increment_node_count` increments its counter twice (execution_context.cpp:149-154), so that an odd node limit is never noticed and an even one after half as many nodes.
62. gsiril's `permute_and_prove_t` starts each block of place notation with `backstroke` false, so music is counted for the wrong stroke after a block of odd length (proof_context.cpp:119-145).
63. `transp_node::execute` ignores the direction, so a transposition in a reversed block is not inverted (expression.cpp:412-415).
64. `mult_node::execute` converts the count to `int`: `4294967295 * X` (and `-1 * X`) repeats for ever (expression.cpp:866-885).
65. A `break` outside of any loop ends the proof without failure and without any of the final symbols (statement.cpp:107-112).
66. An empty touch is reported true, its last row being the starting row (proof_context.cpp:233-240).
67. `execute_everyrow` does not restore `silent` if the symbol throws (proof_context.cpp:109-117).
68. In the statement `N to M rows` the upper bound is read from the word `to` (parser.cpp, rows command).
69. The music function `crus` is registered as `runs_impl` (functions.cpp).
70. The function `at` rejects the index equal to the number of bells (functions.cpp).
71. `litelib` skips a byte order mark only in a stream: for a file `begin()` goes back to offset 0, and the mark becomes part of the first entry or makes it unreadable (litelib.cpp; `C60_file_bom`).
72. `trim_trailing_whitespace` of litelib.cpp reads the last character of an empty string: `base_name` of an entry named only by its stage is undefined (`C62_others`).
73. `base_name` tries `Bob` and `Place` before `Treble Bob` and `Treble Place`, so `Kent Treble Bob Minor` has the base name `Kent Treble` (`C62_treble`); `Little` is kept if the class has no word (`C62_others`).
74. `remove_suffix` looks at the first occurrence only: a name that contains its stage or class word twice keeps the suffix.
75. A line of a lightweight library that is only a carriage return is an entry with empty place notation.
76. A stream-based `litelib` is consumed by one iteration or `find` (`C60_again`); `good()` of litelib does not look at `ok`.
77. In a MicroSiril library any line without exactly two spaces (an entry with a trailing space, a blank line with a carriage return) silently ends the library (`C65_entries`); the number of bells from the file name is stored but never read.
78. `methodset::append` of a range returns the length of the range, not the number of methods added (`C64_append`); a second method with the same changes but another name is dropped (`C64_history`).
79. `add_scored_music_string` tests for a leading `+` but its loop stops at it, so `+5:1234` is taken for a pattern and throws (`C66_plus`).
80. `read_len` cuts the length down to an `int`: `<4294967300-runs>` are runs of 4 (`C66_wrap`); on more than 33 bells the pattern for `rounds` has `*` for the high bells (`C66_big`).
81. `symbols()` of an object on 8 bells without `tenors_together` leaves out rows with split tenors that are not themselves X, Y or Z, although `lookup_symbol` names their group (`C67_split_finding`).
82. `false_courses()` leaves the member `flags` uninitialised, so that `symbols()` of such an object branches on an indeterminate value; the model takes the flags as a parameter.
83. On 10 bells the rows of group D1 get the name B1 (the two groups are one there, `rep_ten`); names of rows on 10 bells are not those of higher stages.
84. `is_enclosed` tests for empty brackets after its loop, when `first` is `last`: the test never holds (and computes iterators beyond the end), so `{}` and `[]` are accepted (`C68_empty_finding`).
85. `++ x`, `-- x`, `save x` and `echo "..."` do not check that nothing follows: `++ x y z` is read as `++ x`, and brackets of different kinds match there (`C68_trailing_finding`, `C68_mixed_finding`).
86. A semicolon right after `{` makes an empty alternative that always matches (`C68_first_semicolon_finding`); trailing semicolons are skipped.
87. Subtraction, division and remainder group from the right: `10-3-2` is 9, `100/10/5` is 50 (`C68_right`).
88. `string_to_int` cuts a `long` down to an `int`: the literal 4294967297 is 1 (`C68_wrap_finding`); `f(a,)` throws but `[a,]` is read (`C68_comma_finding`).
89. `parse_command` reads the second number of `N to M rows` from the word `to` (parser.cpp:402), so the statement always throws (`C69_rows_range_finding`).
90. The test for the end of a program compares the text of the token only: a line `"end"` (a string) ends it (`C69_end_literal_finding`).
91. `end` inside `if` or `foreach` puts `statement( NULL )` into the block, and running the block dereferences it (`C69_end_block_finding`).
92. `.=` is read in expressions, but `x .= y` is no statement (`C69_append_assign_finding`); after a token that is not allowed the rest of the line is read as a command (`C69_resume_finding`).
93. In gsiril `a+1` and `a&b` are no sums: the tokeniser takes `+1` and `&b` as place notation (`C70_sum_finding`); two divisions on one line are read as a pattern (`C70_divisions_finding`); after a quote that is not closed reading goes on behind the quote (`C70_quote_finding`).
94. Because of `*last` in `read_bell_expr` (finding above) place notation with braces within braces is never read (`C70_nested_finding`). Not proved, because the stream is not modelled as interactive: the exception leaves the tokeniser at the same place, so that an interactive session, which goes on after errors, reports it for ever.
95. If the row mask does not fit to a new number of bells, `N bells` fails but the number of bells is changed, and no expression can be evaluated any more (`C71_bells_mask_finding`, `C71_blocked`).
96. Behind an import the starting row is not restored: a module that sets another number of bells destroys `rounds`; the number of bells is not restored if it was not set before (example at `C71_import`). The warning about that has no line end.
97. In an interactive session place notation with an open brace is never skipped: the tokeniser throws before it has advanced, and the same error is reported for ever (`C72_stuck_finding`).
98. `x := (break, 1)` throws a `script_exception`, which is no `std::exception`: it leaves `parser::run` and ends the program with code 2, interactive or not; literals inside `if` and `foreach` are read for the number of bells before the block (`C72_block_finding`).
99. `{257}` is the treble and `{0}` becomes `{256}` (`C73_wrap_finding`); braces within braces of patterns are misread (`C73_nested_finding`); patterns accept only upper case letters for bells (`C73_case_finding`).
100. `register_functions` (functions.cpp:260) binds `crus` to the function of `runs`; `crus_impl` is never used (`C74_crus_finding`).
101. `-b 2` is rejected (prog_args.cpp:289) although `2 bells` is accepted; `-S` without `=` ends gsiril with code 2 but `-D` without a definition with code 3, in the case of two definitions after executing the first (`C74_string_bad`, `C74_definition_bad`, `C74_definition_more`).
102. `filter` (main.cpp:247-297) never resets that something has been proved: with `--prove-one` the second method ends gsiril with code 2 (`C75_prove_one_finding`); with `-P` and a program that only defines symbols nothing is proved for any method but the first, and all of them pass (`C75_nothing_proved_finding`).  For the first method the symbol proved is `lh`, which `filter` defines before the program is read.  Definitions and settings made for a method stay for the next ones.
103. `has_rotational_symmetry` (methodutils.cpp:165-176): about a row of a lead of odd length the change opposite the row is its own partner but is not compared with its reflection, so the method 34 on four bells is reported as symmetric (`C76_rotational_wrong`); without changes `% 0`.
104. `is_division_false` (methodutils.cpp:60-81) does nothing with fewer than three changes in the division, but 34.12.x comes back after three (`C77_division_missed`); `is_cyclic_le` reads `lh[hunts]` without a test (`C77_cyclic`).
105. `compare_changes` (methodutils.cpp:266-279) reads the printed change character by character, so that a place above the 33rd, printed in braces, throws `bell::invalid` (`C78_compare_big`).
106. `find_dodges` (methodutils.cpp:393-420) counts dodging throughout a lead as one run of the length of the lead: whether it is a point depends on the number of leads (`C78_points_lead_length`).
107. `old_lhcode` (methodutils.cpp:281-389) reads `m.back()` of a method without changes on five and six bells (`C79_old_lhcode_empty`).
108. `general_recurse` (search.cpp:1158-1172, 1424-1427): with --symmetric and --start-at the changes copied by symmetry do not use up the changes of the starting method, so that later changes are compared with the wrong ones; methods are lost, even the one given (`C80_start_lost`).
109. `is_limited_le` (search.cpp:788-797) makes the change `1` and the last hunt bell, which with two hunt bells is 13, no change: `change::invalid` (`C80_limited_twin`).
110. `general_recurse` (search.cpp:1385, 1451): leads of four changes (`lead_len > 4` fails) are not made symmetric with --rotational (`C81_rotational_short`).
111. `new_midlead_change` (search.cpp:1189-1206, 1402-1404): with --rotational and no quarter lead change the blows across the quarter lead are not counted (`C82_quarter_lead`), without hunt bells not those across the half lead (`C82_half_lead`).
112. `new_midlead_change` (search.cpp:1217-1219) tests the lead end as in a method symmetric about it although with --floating-sym it need not be; methods within the limit on blows are lost (`C82_floating_lost`).
113. `parse_mask` (mask.cpp:822-832) copies the changes of the first position (with -w, of the first two) to all others of a principle, so the rest of its mask is ignored: 3.1.5.3.1 is searched as 3.3.3.3.3 (`C85_mask_ignored`).
114. `merge_changes` (mask.cpp:583-601) calls `swappair` with overlapping pairs if a change of the mask takes the treble elsewhere (16 as the first change on six bells): undefined behaviour instead of a message (example at C84).
115. For a principle with -w on an even number of bells the cross is used at every other change although --changes may exclude it (mask.cpp:539-542).
116. `expand_block` (mask.cpp:255-309) tests `expand_by < 0` on a `size_t`, which never holds: for a mask longer than the lead `vector::insert` throws `length_error` ("vector::_M_fill_insert"), not "mask was too long" (example at C86).
117. `read_block` (mask.cpp:245-249) reflects a block without any change (`&` alone, or `&,`): `rbegin() + 1` is past the end (`C86_empty_reflected`).
118. `is_mask_consistent` (mask.cpp:706-712) chooses the quarter lead by `depth > hl_len`; with one hunt bell position `hl_len` belongs to the second half lead, so it is paired with nothing and its pair is tested in one direction only; and `continue` there also skips the tests for --double and --symmetric (example at C87).
119. `operator<<` for a length (dimension.cpp) writes the sign with the whole part only, so -1/2 in is written as "1/2 in" and read back as its opposite (`C88_sign_lost`).
120. It writes zero as "0" without the unit, which `read` rejects with bad_format (`C88_zero_not_read`).
121. `dimension::reduce` divides by the greatest common divisor, which is zero for 0/0: the text "0/0 in" and a zero length `/= 0` divide by zero (`C88_zero_by_zero`).
122. `musical_analysis::analyse` (music.cpp:203-210) collects for a course the rows after each change, for a lead those before, and passes both to `process_rows` as starting at handstroke: the same rows count at opposite strokes (`C89_strokes`).
123. With an odd number of changes in the lead, `halflead` has one row less than `rhalflead` from the row before the half-lead change (`C89_odd`); with an empty method the reverse iterators are moved past the end (`C89_empty`).
124. If a change of the method given with `--start-at` is not allowed or fails a test, the recursion never follows it to its end, the changes left are used up in other places of the search (search.cpp:1159-1162) and methods after it are lost (`C90_start_not_allowed`); with a symmetry even a method that would be found loses the methods after it, and itself (`C80_start_lost`).
125. `set_node::restart` (row_calc.cpp:348) starts again with the first element but does not restart the elements, so in a product with a set or group on the left in which a list is nested, all but the products with one row of the right-hand side are lost (`C91_lost_nested`).
126. `exp_node::restart` (row_calc.cpp:291) restarts only the left-hand side: of `({12}^{12,21})*{12,21}` half is lost (`C91_lost_conjugates`).
127. A single row from which itself is taken throws `vector_end` (row_calc.cpp:240), which ends the list it is an element of: `{12-12, 21}` is empty (`C91_lost_after_difference`).
128. `evaluate_binary_arguments` is called with its arguments exchanged (row_calc.cpp:266, 301 against :173), so the right-hand side varies slowest and the side that reads standard input is read again, which the function is there to avoid (stated as it is in C91).
129. A negative power is never read: `parse_row_or_int` allows for a `-` (row_calc.cpp:729), but `parse_expr` searches for the `-` of a difference first, in `21^-1` (which ends in `^` before it) as in `21^(-1)` (which has nothing before it), and throws (`C92_no_negative_power`, `C92_negative_refused`).
130. The search for touches by a plan gives touches longer than the greatest length asked for: `depth < lenrange.second` (join_plan_search.cpp:211) is tested before the lead's length is added, and not when a touch comes round, so that `-l1-20` may give a touch of 24 changes (`C93_too_long`; by less than a lead, `C93_length`). The comment at :232 says the lengths are in leads; they are in changes.
131. With `--comma-separate` ("suitable for passing to gsiril") the line of a touch starts with a comma: `len != 0` (apps/touchsearch/main.cpp:103) is tested after the changes of the lead have been counted (`C94_first_comma`).
132. `extent` does not limit the number of bells (apps/extent/extent.cpp:81-98): with `-b257 -h257` it writes something in which a bell occurs twice (`C95_too_many`). `-b` is said to be required, but without it an empty row is written.
133. `trim_trailing_whitespace` (apps/utils/stringutils.cpp:62) reads the character before the text if it is empty, and does not look at the first character: an empty line given to `rowcalc` (rowcalc.cpp:164), or one of white space only, is undefined behaviour (`C97_blank`), and text of white space is trimmed to one character and not to none (`C97_trailing`).

## Plan per property

| property | model | proof |
|---|---|---|
| C01-C02 | `Model/Row`: mul, div, inverse as list code | refine to functions on all of Nat (`Row.fn`, bells past the end fixed); composition laws there, then extensionality |
| C03 | validate loop, resize | loop invariant on `found` vs `List.Perm (range n)` |
| C04-C05 | power recursion, order via cycles string and lcm | orbit lemmas; order = lcm of cycle lengths; Nat induction |
| C06 | sign via cycles length | equals Mathlib `Equiv.Perm.sign` through cycle type |
| C07 | cycles loop with `done` flags | loop invariant: closed `done` set |
| C08 | cycle splitting + any tie order | explicit conjugator |
| C09-C10 | read_char/read_extended/strtoul, printing | induction on digits / list |
| C11-C16 | change constructor loops, places, swappair, application | place lists <-> swap lists |
| C17-C18 | interpret_pn, format on `List Char` | token-by-token simulation, palindrome arithmetic |
| C19-C22 | method functions | folds, arithmetic modulo n |
| C23-C26 | factoradic loops, next_permutation, changes_iterator stack machine | induction on nw; lexicographic successor |
| C27-C30 | prover as state machine with chain | invariant over histories |
| C31-C33, C51 | `Model/Group`: worklist closure, orbits, coset labels, named groups | worklist invariant with the bound b! for termination; Mathlib `Subgroup` as specification; fast path of the labels by counting the permutations that keep the orbits; cycles numbered by `ZMod` for the named groups |
| C34-C35 | falseness table loops | set characterisation |
| C36 | multtab columns | invariant over column additions |
| C37 | touch iterators as state machine over trees | simulation with flattening |
| C38-C41 | recursive search | soundness by path invariant; completeness by prenecklace argument; `table_search` by simulation of the table by rows, cosets of the part ends |
| C42-C43 | trie and wildcard count | structural induction on pattern |
| C44, C50 | mathutils | Euclid etc.; landau/is_prime use floating point: integer sqrt substituted; landau's bound ranges over all reals within 1/10 of 1.328√(n ln n), the table of largest orders up to 119 is proved with unbounded numbers and compared by the kernel with the table over the primes needed |
| C45-C48 | named rows etc. | index arithmetic |
| C49 | checked (`Out`) versions | never `ub`, agree with pure versions |
| C56 | `Model/Pointers`: heap with freed cells, operations of the pointer classes over any list of pointers | refinement of an abstract machine of handles / of values; invariant: each count is the number of its pointers |
| C57 | `Model/Siril`: interpreter of all nodes of expression.cpp and functions.cpp with a budget of nested calls, state of the proof context with the rows rung as ghost | invariant of every step (`Reach`), by induction on the budget and the node; more budget never changes a result |
| C58 | same | a clone keeps its changes to itself; induction as for C57 |
| C59 | same, `Spec/SirilTouch`: what an expression stands for | induction on the derivation of `Expands`, with enough budget |
| C60-C63 | `Model/Library`: streams as remaining text with flags, `litelib`, `library_base` over any implementation of its virtual functions | lines and words of the text as relations (`Spec/Library`), shown unique and total; induction over the lines |
| C64 | `Model/MethodSet` | refinement of a partial map from sequences of changes, over histories of operations |
| C65 | `Model/Library`: `mslib` | as C60; round trip through C17 and C55 |
| C66 | `Model/NamedMusic`: `add_named_music`, `read_len` with `strtol`, `add_scored_music_string` | relations for names and scores (`Spec/NamedMusic`), shown to cover all strings; the patterns added are those of C42 |
| C67 | `Model/FalseSymbols`: the table of falseness.dat with its cache, `lookup_one_symbol`, `symbols`, `lookup_symbol` | `Spec/FalseSymbols`: groups as double cosets of the plain bob group up to inverse; the group is dihedral (ZMod labels), from 14 bells on moving a row with tenors together is a conjugation of 5 bells (kernel check of a table), 8, 10 and 12 bells by kernel-checked tables of all moves; `Props/FalseCourse`: the rows of a palindromic course are closed under the group |
| C68 | `Model/SirilParser`: `make_expr` and the functions it calls, on lists of tokens | `Spec/SirilGrammar`: the grammar as an inductive relation with levels; both directions by induction (on the derivation, on the depth of calls); scanning lemmas on the depth of brackets |
| C69 | `Model/SirilStatements`: `tokenise_command`, `parse_command`, `parse_if`, `parse_foreach`, `validate` | `Spec/SirilStatements`: commands of a stream and statements of commands as inductive relations; both directions by induction (on the derivation, on the depth of calls), totality with a measure on the stream |
| C70 | `Model/SirilTokens`: `tokeniser::parse` with the tokens of `mstokeniser`, over `getline` | `Spec/SirilTokens`: words and texts as inductive relations; every word is read (by cases), every line has a first word or is bad, induction on the line and on the lines |
| C71 | `Model/SirilRun`: `execute` of the statements with the settings of execution_context.cpp | `Spec/SirilRun`: what a definition is, untouched parts, sequences of false conditions; by cases and induction on blocks; the evaluation of expressions is that of C54-C59 |
| C72 | `Model/SirilRun`: `parser::run`, `import_stmt`, `prove_stream`, `prove_first_symbol`, the exit code of `main` | `Spec/SirilRun`: programs as sequences of statements (`Steps`, `Fails`, `Survives`) over the grammars of C69 and C70; induction on the passes; independence of the budgets by a simulation (`Lemmas/SirilRunMono`) |
| C73 | `Model/SirilLiterals`: `expand_bell_exprs`, `expand_bell_ranges`, `parse_bell_expr`, the constructors of `pn_node`, `transp_node`, `pattern_node` | `Spec/SirilLiterals`: what a text stands for, as inductive relations; both directions by induction on the text |
| C74 | `Model/SirilMain`: the constructor of `execution_context`, `register_functions`, the script gsiril.init, `initialise`, `main` behind the arguments | `Spec/SirilMain`: the table of standard definitions, programs of bells, definitions and a proof; the script is read by evaluation in the kernel, the touch by C59, C71 and C72 |
| C75 | `Model/SirilFilter`: `filter` and `main` with it, `evaluate_string_var` | `Spec/SirilFilter`: which entries are printed and how, what a method defines; the loop by the lemmas of C60, the proof by C59, the printed notation by C17 and C18 |
| C76 | `Model/MethodUtils`: the four symmetries and the string | `Spec/MethodUtils`: the lead as a function on the integers, upside down, palindromes; loops into quantifiers (`allUp_dec`, `anyUp_dec`), arithmetic modulo the length |
| C77 | `Model/MethodUtils`: the five constraints | `Spec/MethodUtils`: rows after changes, parity; loop invariants |
| C78 | `Model/MethodUtils`: `compare_changes`, `tenors_together_coursing_order`, `find_dodges` and its users | places in order, orbits of the place where a bell goes (`follow`), runs in a periodic sequence |
| C79 | `Model/MethodUtils`: `split_over_and_under`, `old_lhcode` | `Spec/MethodUtils`: work above and below the treble, the table of codes; the strings are the places of the changes specified, read back by C11 and C13; the codes by membership in the table and evaluation on it |
| C80 | `Model/MethSearch`: `general_recurse` with its stack of changes, on fuel | `Spec/MethSearch`: leads with determined and free changes; the search of a prefix gives the leads that extend it, in order, by induction on the changes left |
| C81 | the same | the symmetries of C76; positions modulo the length of the lead |
| C82 | the same with the tests for consecutive blows | `LongPlace`: a place held in the lead repeated for ever; runs within a half and across half lead and lead end |
| C83 | `Model/FalsenessAnalysis`: `recurse` with its map of signs, on fuel; `is_cps`, `falseness_group_codes` | the table of C34 relates leads with a row in common; a colouring with signs is found along the edges or an odd cycle is met, by induction on the rows without a sign; C35 and C67 for the courses |
| C84 | `Model/Mask`: `get_posn2`, the selection, merging, sorting and the loop of `parse_mask`; fuel for `changes_iterator` | the position as quotient and remainder by the dodging length, in three cases (swap, lead, lie); merging lists of swaps; a change is determined by its swaps; C26 for the changes iterated |
| C85 | the same | the same; the copied lists by induction along the loop |
| C86 | `Model/MaskBlocks`: reflection, `expand_block` with its `size_t` arithmetic, the collections of blocks and their assertions; Spec: what fillings of a block and expansions of a mask are | arithmetic mod 2^64 in six cases for one block, with reflected lists split at the `*`; a filling is determined by its length; induction over the blocks before and after the unknown part |
| C87 | the loop of `is_mask_consistent`, `restrict_changes` | each pair of positions is met from both ends, which makes one inclusion an equality; reversal is an involution |
| C88 | `Model/Dimension`: a text is its list of characters, `int` with overflow as undefined | each loop of digits computes the number; Euclid's algorithm by induction; the quotient and remainder written are the number |
| C89 | `Model/MethMusic`: `transform` as recursion over the changes, reverse iterators with their bounds; scores by the model of `music` | rows before and after changes against `follow`; the order of a permutation; each change undoes itself; C42 for each block |
| C90 | `Model/MethSearch` with `start`, `Model/MethSearchStart`: `lexicographical_compare` with `compare_changes` | induction over the changes of the start from the last to the first; after them the search is that of C80 |
| C91 | `Model/RowCalc`: a node is a machine with a state, `evaluate`, `restart` and `count_vectors`; `vector_end` is no row | each node refines the list of rows it stands for: an invariant relates its state to the rows that are left; induction over expressions, in products over the right-hand side |
| C92 | `Model/RowCalcParse`: parts of the tokens are lists; the reading of a row is a parameter | a separate grammar; an invariant of what it spells: depth of brackets of each kind, and which tokens are at depth zero; induction over the grammar |
| C93 | `Model/JoinPlan`: the recursion with its lead heads had; rows for their numbers in the table | a touch by calls: lead heads, lead ends, apart; induction over the calls, lead heads of the plan not yet had as a measure |
| C94 | `Model/PrintTouch`: the loops over entries, repeats and parts; the changes of a node are a list | names of leads, the least number of repeats that comes round; powers of the row at the end (C04), induction over leads and repeats |
| C95 | `Model/ExtentApp`: validation and loop | `InExtent`, `LexLt` of C24; the loop after k increments (C24, C06) |
| C96 | `Model/MusGrep`: the loop, without scores; the music of C42 | which rows are looked at, at which stroke; induction over the rows with C42 for each |
| C97 | `Model/Trim`: positions in the list for iterators | text with its white space before and after; induction over the white space |
| C98 | `Model/Splices`: the table as a list of splices with finite sets of methods | the equivalence closure of the pairs saved; invariant of the table over the pairs saved |
| C54-C55 | `Model/MethodName` | words of `phrase`; decimal digits are injective; powers of the plain bob lead head move every working bell (ZMod numbering) |
