{"id": "C01", "title": "Row multiplication is composition, with padding", "statement": "For valid rows a, b, c on possibly different numbers of bells: a*b is a valid row on max(a.bells(), b.bells()) bells; reading it as a permutation of all positions (bells beyond the end staying home) (a*b) is 'b first, then a', i.e. (a*b)[i] = a[b[i]]; multiplication is associative, and rounds on no more bells is a two-sided identity.", "quantifier": "all valid rows a, b, c of all (mixed) stages", "why_tests_cant": "Infinitely many inputs; a test samples a few rows/changes at a few stages.", "anchors": ["ringing/row.cpp:row::operator*", "ringing/row.cpp:row::operator*="]}
{"id": "C02", "title": "Row inverse and division are a group inverse and right division", "statement": "r*r.inverse() and r.inverse()*r are rounds; (a*b).inverse() = b.inverse()*a.inverse(); (a/b)*b is a padded to the larger stage; a/b = a*b.inverse() as data; a/a is rounds.", "quantifier": "all valid rows of all (mixed) stages", "why_tests_cant": "Infinitely many inputs; a test samples a few rows/changes at a few stages.", "anchors": ["ringing/row.cpp:row::inverse", "ringing/row.cpp:row::operator/"]}
{"id": "C03", "title": "Rows are validated on construction: accepted exactly when a permutation", "statement": "row(vector<bell>) accepts the data unchanged exactly when it is a permutation of the first n bells and otherwise throws row::invalid; row(string) does so for the bells the string spells and throws bell::invalid on a non-bell; row(int n) is rounds for n <= 256 (beyond, it is silently not a row); resize (to at most 256 bells) pads with rounds or truncates, throwing iff the truncation is not a permutation.", "quantifier": "all bell vectors and all strings", "why_tests_cant": "The set of malformed inputs is infinite.", "anchors": ["ringing/row.cpp:row::validate", "ringing/row.cpp:row::row(string)", "ringing/row.cpp:row::resize"]}
{"id": "C04", "title": "row::power is repeated multiplication for every integer exponent", "statement": "On up to 58 bells (where the order fits an int), power(n) is the n-fold product for every integer n whenever n, or n reduced modulo the order, is at most bells^2 in absolute value - in particular always on up to 18 bells - and in every other case (possible from 19 bells) it never returns; exponents add.", "quantifier": "all valid rows and all integer exponents representable without overflow of -n", "why_tests_cant": "Exponents and rows are unbounded; the shortcut only triggers for n > bells^2.", "anchors": ["ringing/row.cpp:row::power"]}
{"id": "C05", "title": "row::order is the least positive period", "statement": "For a valid row on up to 58 bells, order() is positive, following the row order() times is rounds, and no smaller positive number of times is; r^k is rounds iff order() divides k; no int overflow happens in the computation.", "quantifier": "all valid rows", "why_tests_cant": "Infinitely many inputs; a test samples a few rows/changes at a few stages.", "anchors": ["ringing/row.cpp:row::order", "ringing/mathutils.h:lcm"]}
{"id": "C06", "title": "row::sign is the parity of the permutation", "statement": "sign() is +1 for even and -1 for odd permutations (the mathematical sign), hence sign(a*b)=sign(a)*sign(b), sign(rounds)=1, and applying a change multiplies the sign by change::sign().", "quantifier": "all valid rows and all changes", "why_tests_cant": "Infinitely many inputs; a test samples a few rows/changes at a few stages.", "anchors": ["ringing/row.cpp:row::sign", "ringing/row.cpp:row::cycles", "ringing/change.cpp:change::sign"]}
{"id": "C07", "title": "Cycle structure functions agree with the permutation", "statement": "cycle_size(b) is the least k>0 such that following the row k times from b returns to b (for b in range; out of range is undefined behaviour); num_cycles() counts the orbits; cycles() lists every bell exactly once, grouped by orbit, in order of traversal.", "quantifier": "all valid rows, all bells", "why_tests_cant": "Infinitely many inputs; a test samples a few rows/changes at a few stages.", "anchors": ["ringing/row.cpp:row::cycle_size", "ringing/row.cpp:row::num_cycles", "ringing/row.cpp:row::cycles"]}
{"id": "C08", "title": "are_conjugate and conjugator decide and witness conjugacy", "statement": "For rows on the same number of bells, are_conjugate(x,y) is true exactly when some row r has y = r^-1 x r; on up to 33 bells conjugator(x,y) is then such an r, and otherwise the empty row (above 33 bells it throws bell::invalid for conjugate rows). Whatever order std::sort leaves equal-length cycles in. Rows on different numbers of bells are never reported conjugate.", "quantifier": "all pairs of valid rows on at most 33 bells, and all orders std::sort may choose among ties", "why_tests_cant": "Quantifies over all pairs and over unspecified sort order.", "anchors": ["ringing/row.cpp:conjugator", "ringing/row.cpp:are_conjugate", "ringing/row.cpp:conjugacy_class_vector"]}
{"id": "C09", "title": "Bell symbols round-trip", "statement": "Writing a bell with operator<< (symbol, or {n} beyond the symbol table) and reading it with read_extended gives back the bell and consumes exactly what was written; read_char is case-insensitive on the default table, reads I as 1 and O as 0, and throws exactly on characters that are not symbols (NUL counting as a symbol); read_extended never returns anything but an 8-bit bell, though it accepts {0} and {} as bell 255.", "quantifier": "all 256 bell values followed by arbitrary text; all characters", "why_tests_cant": "The text following the symbol is arbitrary.", "anchors": ["ringing/bell.cpp:bell::read_extended", "ringing/bell.cpp:bell::read_char", "ringing/bell.cpp:operator<<"]}
{"id": "C10", "title": "Row print/parse round trip", "statement": "The string written by operator<< for a valid row parses back to the same row at any stage; print() parses back for rows on at most 33 bells; distinct rows print differently.", "quantifier": "all valid rows up to 256 bells", "why_tests_cant": "Infinitely many inputs; a test samples a few rows/changes at a few stages.", "anchors": ["ringing/row.cpp:row::print", "ringing/row.cpp:operator<<", "ringing/row.cpp:row::row(string)"]}
{"id": "C11", "title": "Change construction from place notation", "statement": "change(n, places) accepts exactly the strictly increasing place lists below n in which the bells left between consecutive places can be paired (an odd gap before the first place meaning an implicit place at lead, an odd gap at the end meaning an implicit place at the back); the result makes exactly those places and swaps all other neighbours in pairs; X, x and - make the cross.", "quantifier": "all stages up to 255 bells and all place lists/strings", "why_tests_cant": "Infinitely many inputs; a test samples a few rows/changes at a few stages.", "anchors": ["ringing/change.cpp:change::change", "ringing/change.cpp:append_swaps_between"]}
{"id": "C12", "title": "Change print/parse round trip", "statement": "For every change made through the API, change(n, c.print(flags)) == c for every cross style, and change(n, c.places()) == c.", "quantifier": "all well-formed changes up to 255 bells and all flags", "why_tests_cant": "Infinitely many inputs; a test samples a few rows/changes at a few stages.", "anchors": ["ringing/change.cpp:change::print", "ringing/change.cpp:change::places"]}
{"id": "C13", "title": "Changes act as involutions on rows, consistently with positions", "statement": "Applying a change to a row swaps exactly the pairs in the change: (r*c)[i] = r[i*c]; it preserves validity; applying it twice restores the row; the position map i -> i*c is an involution that moves each position by at most one; row()*c (as permutation) acts by multiplication: r*c = r*(rounds*c).", "quantifier": "all valid rows, all well-formed changes, all positions", "why_tests_cant": "Infinitely many inputs; a test samples a few rows/changes at a few stages.", "anchors": ["ringing/row.cpp:operator*=(row&,change)", "ringing/change.cpp:operator*=(bell&,change)"]}
{"id": "C14", "title": "swappair toggles a pair and keeps the change well-formed", "statement": "swappair(w) on a well-formed change throws out_of_range iff w+2 > bells, otherwise removes the swap at w if present (returning false) or installs it replacing the overlapping neighbours (returning true), keeping the change well-formed; the only undefined behaviour is when the pair is absent and the change's last pair is the one just below it, and then it always happens.", "quantifier": "all well-formed changes and all w", "why_tests_cant": "All reachable sequences of swappair calls; the faulty case reads one past the end of a vector, which a test usually does not notice.", "anchors": ["ringing/change.cpp:change::swappair"]}
{"id": "C15", "title": "Places, swaps and internal places are reported consistently", "statement": "findswap(i) holds iff the change swaps positions i,i+1; findplace(i) iff the bell in place i stays; places() lists exactly those positions increasingly and count_places() counts them; internal() iff a place other than lead and back is made (3 or more bells); have_same_places iff some common place.", "quantifier": "all well-formed changes, all positions", "why_tests_cant": "Infinitely many inputs; a test samples a few rows/changes at a few stages.", "anchors": ["ringing/change.cpp:change::findswap", "ringing/change.cpp:change::findplace", "ringing/change.cpp:change::internal", "ringing/change.cpp:have_same_places"]}
{"id": "C16", "title": "Reversing a change", "statement": "c.reverse() swaps i,i+1 exactly when c swaps n-2-i,n-1-i; reverse is an involution, keeps the sign, and equals conjugation of the change by reverse rounds.", "quantifier": "all well-formed changes", "why_tests_cant": "Infinitely many inputs; a test samples a few rows/changes at a few stages.", "anchors": ["ringing/change.cpp:change::reverse"]}
{"id": "C17", "title": "Method place notation format/parse round trip", "statement": "For every method whose changes are well-formed, parsing method.format(flags) as a C string on the same number of bells yields the same changes, for every flag combination without M_OMIT_LH, and with M_OMIT_LH the changes without the last one (undefined behaviour exactly when there is no change to omit); on up to 33 bells parsing it as a std::string gives the same.", "quantifier": "all methods (any length, any stage up to 33 bells on the default symbols), all format flags", "why_tests_cant": "Interaction of symmetry detection, dots, external-place omission and cross style over unbounded methods.", "anchors": ["ringing/method.cpp:method::format", "ringing/place_notation.h:interpret_pn"]}
{"id": "C18", "title": "Place notation parsing: meaning and rejection", "statement": "A C string is accepted as place notation exactly when it follows the grammar (blocks separated by commas; a leading + or & ; changes separated by dots or crosses; & blocks followed by their mirror image without the last change), and then means what the grammar says; parsing always ends, throws on anything else, has no undefined behaviour and never emits an ill-formed change. For a std::string without { the result is the same; with a bracketed bell it can dereference the end iterator.", "quantifier": "all strings, all stages", "why_tests_cant": "All strings.", "anchors": ["ringing/place_notation.h:interpret_pn"]}
{"id": "C19", "title": "Lead head and number of leads", "statement": "method::lh() is the row obtained from rounds by ringing all the changes; on up to 58 bells leads() is the least k>0 such that ringing the method k times from any row comes back to it.", "quantifier": "all methods", "why_tests_cant": "Infinitely many inputs; a test samples a few rows/changes at a few stages.", "anchors": ["ringing/method.cpp:method::lh", "ringing/method.cpp:method::leads"]}
{"id": "C20", "title": "Palindromic symmetry detection", "statement": "issym() iff the length is even and the changes are palindromic about the half lead and lead end; symmetry_point() returns the least i < n/2 about which the changes are palindromic (i and i+n/2 the fixed points) and -1 if none or odd length; ispalindromic() iff symmetry_point() != -1; in an issym method the lead head is a product of two involutions (half lead and lead end conjugates).", "quantifier": "all methods", "why_tests_cant": "Infinitely many inputs; a test samples a few rows/changes at a few stages.", "anchors": ["ringing/method.cpp:method::issym", "ringing/method.cpp:method::symmetry_point", "ringing/method.cpp:method::is_palindromic_about"]}
{"id": "C21", "title": "Simple method predicates", "statement": "isdouble() iff the second half of the changes is the first half reversed top to bottom; huntbells() counts the fixed bells of the lead head; hasplaces(b) iff bell b makes two consecutive blows in an internal place during the lead; isplain(b) iff b's path over the lead plain hunts; maxblows() is the longest run of consecutive blows in one place within the (cyclic) lead, or -1 if no place is made.", "quantifier": "all methods, all bells", "why_tests_cant": "Infinitely many inputs; a test samples a few rows/changes at a few stages.", "anchors": ["ringing/method.cpp:method::isdouble", "ringing/method.cpp:method::huntbells", "ringing/method.cpp:method::hasplaces", "ringing/method.cpp:method::isplain", "ringing/method.cpp:method::maxblows"]}
{"id": "C22", "title": "Method classification is defined for every method", "statement": "methclass() returns a class and flags which are those of the definitions of the Framework / the older Decisions as the code implements them, for every method, whatever the memory just beyond the lead head (which it reads for every principle and every method with lead head rounds) contains - except before 2019 on one bell, where the class depends on that memory; each method has exactly one class, and it is principle exactly when no bell is fixed by the lead head; hasdodges() recognises dodges in every non-empty method and divides by zero on an empty one.", "quantifier": "all methods", "why_tests_cant": "The faulty read is one past the end of the lead head and happens only for some lead heads.", "anchors": ["ringing/method.cpp:method::methclass", "ringing/method.cpp:method::hasdodges"]}
{"id": "C23", "title": "Indexing the extent", "statement": "For up to 13 working bells (and nh+nw <= 255) nth_row_of_extent and position_in_extent are mutually inverse bijections between [0, nw!) and the rows with nw working bells (nh fixed trebles, the rest fixed tenors); position_in_extent is monotone for lexicographic order and below nw! for up to 20 working bells, refuses rows not in the extent, and treats a row on too few bells as padded if there are no tenors (with tenors: undefined behaviour). With 14 working bells nth_row_of_extent is wrong.", "quantifier": "all nw, nh, nt with nh+nw <= nt, all indices and all rows", "why_tests_cant": "nw! rows; overflow of factorial appears only at large stages.", "anchors": ["ringing/extent.cpp:nth_row_of_extent", "ringing/extent.cpp:position_in_extent", "ringing/mathutils.cpp:factorial"]}
{"id": "C24", "title": "Extent iteration visits every row exactly once in order", "statement": "Incrementing extent_iterator from the beginning visits, in strictly increasing lexicographic order, every row on nt bells permuting exactly the nw working bells, each exactly once, and is the end iterator after exactly nw! steps; decrementing undoes incrementing between rows, and at the first row goes round to the last; decrementing the end iterator finds the last row but the iterator remains equal to end() and further decrements do not move it.", "quantifier": "all nw, nh, nt", "why_tests_cant": "Infinitely many inputs; a test samples a few rows/changes at a few stages.", "anchors": ["ringing/extent.cpp:extent_iterator::operator++", "ringing/extent.cpp:extent_iterator::operator--"]}
{"id": "C25", "title": "In-course extent", "statement": "incourse_extent_iterator visits exactly the even rows of the extent in order and then ends; for up to 13 working bells nth_row_of_incourse_extent(n) is the n-th of these and position_in_incourse_extent inverts it (positions are monotone for up to 20); sign_of_nth_row_of_extent(n) is the sign of nth_row_of_extent(n) and of the row at position n.", "quantifier": "all nw, nh, nt, n", "why_tests_cant": "Infinitely many inputs; a test samples a few rows/changes at a few stages.", "anchors": ["ringing/extent.cpp:incourse_extent_iterator::operator++", "ringing/extent.cpp:nth_row_of_incourse_extent", "ringing/extent.cpp:sign_of_nth_row_of_extent"]}
{"id": "C26", "title": "changes_iterator enumerates all changes", "statement": "changes_iterator visits every well-formed change on nt <= 255 bells that leaves all but the nw working places fixed (the identity included) exactly once, fibonacci-many in all, then ends, without undefined behaviour.", "quantifier": "all nw, nh, nt", "why_tests_cant": "Infinitely many inputs; a test samples a few rows/changes at a few stages.", "anchors": ["ringing/extent.cpp:changes_iterator::next"]}
{"id": "C27", "title": "Prover: truth means no row too often", "statement": "After any sequence of add_row, remove_row, create_branch (continuing on the branch) and disable_proving calls, with or without failure information and wherever the library puts equal rows: count_row is the number of occurrences, size the number of rows, duplicates the number of surplus occurrences; add_row returns truth(); remove_row throws logic_error, changing nothing, iff the row was not added since the last branch; and (without branches or disabling) truth() is true iff no row occurs more than max_occurs times (or that is -1).", "quantifier": "all histories of add_row and remove_row", "why_tests_cant": "All histories.", "anchors": ["ringing/proof.cpp:prover::add_row", "ringing/proof.cpp:prover::remove_row", "ringing/proof.cpp:prover::count_row"]}
{"id": "C28", "title": "Prover branches behave like copies", "statement": "A branch of a prover whose truth() is true answers every sequence of additions, and of removals of rows added since the branch, exactly as an independent copy would (results, count_row, size, duplicates, truth), as long as the original is not modified. (A branch of a false prover claims truth, and rows from before the branch cannot be removed: both proved.)", "quantifier": "all histories before and after branching, all depths of chaining", "why_tests_cant": "All histories.", "anchors": ["ringing/proof.cpp:prover::create_branch"]}
{"id": "C29", "title": "Prover failure information", "statement": "After any sequence of add_row calls the failinfo list contains, once and for exactly the rows occurring more than max_occurs times, all the line numbers at which the row occurs. (With removals stale entries and wrong lines appear, and on branches the lines before the branch are missing: proved.)", "quantifier": "all histories", "why_tests_cant": "All histories, and all insertion positions the standard allows a multimap with hint.", "anchors": ["ringing/proof.cpp:prover::add_row", "ringing/proof.cpp:prover::remove_row"]}
{"id": "C30", "title": "proof::prove", "statement": "prove() is true iff no row occurs more than max times among the true and unknown blocks together, both in quick and full mode; in full mode failed() is empty for a true touch and for a false one has a single entry, the row at which the touch first becomes false with its lines up to there. The constructors answer the same but failed() is then always empty, and for a false touch in full mode they have undefined behaviour (a member is used before it is constructed).", "quantifier": "all sequences of rows, all max, both modes", "why_tests_cant": "All sequences.", "anchors": ["ringing/proof.h:proof::prove"]}
{"id": "C31", "title": "group(generators) is the generated subgroup", "statement": "The constructed group lists, in strictly increasing order, exactly the rows (on the largest number of bells among the generators) whose permutations belong to the subgroup generated by the generators; no generators give the trivial group on no bells; construction terminates. Every group object that can be built contains rounds and is closed under multiplication and inverse; two groups compare equal iff they have the same number of bells and the same rows.", "quantifier": "all finite lists of valid rows", "why_tests_cant": "Infinitely many inputs; a test samples a few rows/changes at a few stages.", "anchors": ["ringing/group.cpp:generate_group", "ringing/group.cpp:group::group"]}
{"id": "C32", "title": "Derived groups", "statement": "conjugate(r), for r on no more bells than the group, is {r^-1 g r}, even_subgroup() the even elements; both are groups, sorted; invariants() lists in order exactly the bells fixed by every element; direct_product(a,b) is the group of all independent combinations, of size a.size()*b.size(). (Conjugating by a row on more bells leaves bells() too small: proved.)", "quantifier": "all groups, all rows", "why_tests_cant": "Infinitely many inputs; a test samples a few rows/changes at a few stages.", "anchors": ["ringing/group.cpp:group::conjugate", "ringing/group.cpp:group::even_subgroup", "ringing/group.cpp:group::invariants", "ringing/group.cpp:group::direct_product"]}
{"id": "C33", "title": "Coset labels", "statement": "For rows on as many bells as the group and groups of fewer than 10^8 elements rcoset_label(r) is the lexicographically least element of the right coset Gr whichever of its three code paths runs, and lcoset_label(r) that of rG; labels are equal iff the cosets are; members have the label rounds. (Through the fast path for products of symmetric groups a row on more bells throws row::invalid, one on fewer bells is undefined behaviour: proved.)", "quantifier": "all groups, all rows on the same stage", "why_tests_cant": "Infinitely many inputs; a test samples a few rows/changes at a few stages.", "anchors": ["ringing/group.cpp:group::rcoset_label", "ringing/group.cpp:group::lcoset_label", "ringing/group.cpp:is_direct_product_of_symmetric_groups"]}
{"id": "C34", "title": "Falseness tables are exact", "statement": "falseness_table of two lists of rows contains, in increasing order and once each, exactly the quotients a/b that the flags allow (treble fixed unless no_fixed_treble, in course, out of course). For methods, leads rung from r and s share a row iff s = r*f for some f in the table (for pairs of rows the flags allow). With half_lead_only the table of methods is built from only a quarter of each lead (both row_block and init halve: proved), and a method of one change is undefined behaviour. generate_group gives the group generated by the table, or with out_of_course_only, for a method's own table, its even subgroup.", "quantifier": "all methods / row lists, all flags, all lead heads", "why_tests_cant": "Infinitely many inputs; a test samples a few rows/changes at a few stages.", "anchors": ["ringing/falseness.cpp:falseness_table::init"]}
{"id": "C35", "title": "False course heads are exact", "statement": "If the treble is a hunt bell and the lead head takes the tenor through every other position, false_courses(m) terminates and contains, in order, exactly the rows fixing treble and tenor whose courses share a row with the plain course (restricted by the in-course and tenors-together flags). If some false lead can never be brought to one with the tenor at home, as for Grandsire Doubles, the constructor never returns (proved).", "quantifier": "all methods in which treble is a hunt bell and the lead head moves the tenor through all leads", "why_tests_cant": "Infinitely many inputs; a test samples a few rows/changes at a few stages.", "anchors": ["ringing/falseness.cpp:false_courses::initialiser::process"]}
{"id": "C36", "title": "Multiplication table agrees with row multiplication", "statement": "For a table of distinct rows (closed under the part ends): find(r) is the index of the least row of the class {p*r*q}, two rows have the same index iff in the same class, isrounds recognises the class of rounds, and there are size/partends rows. After any sequence of compute_pre_mult and compute_post_mult by rows commuting with the group on their side and keeping the set, find(r)*col = find(r*x) (col*find(r) = find(x*r)) for every column computed at any time: later columns disturb nothing, and asking twice gives the same column. Non-commuting rows are refused with logic_error. sqmulttab multiplies exactly. (With a post group, products outside the table's rows may silently give index 0, rounds: proved.)", "quantifier": "all row sets, all part-end groups, all histories of column additions", "why_tests_cant": "All histories of column additions.", "anchors": ["ringing/multtab.cpp:multtab::compute_post_mult", "ringing/multtab.cpp:multtab::find", "ringing/multtab.cpp:multtab::make_representative"]}
{"id": "C37", "title": "Touch iteration flattens the tree", "statement": "If every child anywhere in the tree is repeated at least once and has at least one change, iterating a touch yields exactly the changes of its leaves in order, each child as often as it says, and ends; a touch without a head is empty. A child without changes makes the iteration undefined behaviour, and a child repeated zero or a negative number of times never ends (proved).", "quantifier": "all touch trees of any depth", "why_tests_cant": "Unbounded trees.", "anchors": ["ringing/touch.cpp:touch_child_list::iterator::operator++", "ringing/touch.cpp:touch_changes::iterator"]}
{"id": "C38", "title": "basic_search outputs only true round touches", "statement": "Whatever the outputer answers, every touch passed to it comes round at its end, contains no row twice, and has a number of leads within the range, provided no row is repeated within one lead and every lead head keeps the treble in the lead. (If a lead head moves the treble, false touches are output; for a method of one change the touches output cannot be iterated over: both proved.)", "quantifier": "all methods, call sets, length ranges", "why_tests_cant": "All search trees.", "anchors": ["ringing/basic_search.cpp:basic_search::context::run_recursive"]}
{"id": "C39", "title": "basic_search finds every true touch", "statement": "Every true round touch (first return to rounds at its end) within the length range is output; with ignore_rotations, a rotation of it is output. The search ends.", "quantifier": "all methods, call sets, length ranges", "why_tests_cant": "All search trees.", "anchors": ["ringing/basic_search.cpp:basic_search::context::is_possibly_canonical"]}
{"id": "C40", "title": "basic_search outputs each touch once", "statement": "With ignore_rotations no two outputs have the same calls. A true round touch and each of its rotations is output exactly once (with ignore_rotations exactly one rotation) if and only if every rotation that passes the tests for canonical form is the least one; this holds for all touches of at most four leads. (It does not hold for plain, bob, bob, plain, bob: a true touch is output twice, and with ignore_rotations two rotations of it are: proved.)", "quantifier": "all methods, call sets, length ranges", "why_tests_cant": "Needs a long enough non-canonical touch; small tests pass.", "anchors": ["ringing/basic_search.cpp:basic_search::context::is_really_canonical", "ringing/basic_search.cpp:basic_search::context::output_touches"]}
{"id": "C41", "title": "table_search agrees with the specification of touches", "statement": "With one part end, table_search outputs only true round touches whose number of leads is in the range, and every one of them, itself or with ignore_rotations a rotation of it; when exactly once is characterised as for C40. With several part ends the touches output are, each once, exactly those in the range for which no row occurs in different leads of the same or different parts, the first leads of the parts are true against each other (if the part ends are on all bells), the touch ends in a part end (with non_round_blocks: one more lead would be false) and, without mutually_true_parts, it comes round after as many repetitions as there are part ends. Every touch whose parts are true against each other, ends in a part end and comes round so is among them, and if no row occurs in the same lead of different parts the whole touch is true and round; in general it need not be (a row in the same lead of two parts is not noticed). Lengths given in changes are converted to leads without excluding or admitting a touch wrongly, and an outputer that halts has received a prefix of the full output. The method has at least two changes, the part ends keep the treble fixed if all leads do, and have even parity if all lead heads do when mutually_true_parts or non_round_blocks is given.", "quantifier": "all methods, call sets, ranges, flags", "why_tests_cant": "All search trees.", "anchors": ["ringing/table_search.cpp:table_search::context::run_recursive", "ringing/table_search.cpp:range_div"]}
{"id": "C42", "title": "Music patterns count matching rows", "statement": "music_details accepts exactly the patterns made of bell symbols (any case), ?, * and sets [...] of bells. process_row adds to a pattern's count for the stroke of the row the number of ways in which the row matches the pattern, a bell standing for itself, ? for any bell, [..] for one of its members and * for any run of bells, with an implied * at the end of a pattern without one, and returns whether any pattern matched; the count of the other stroke and the other patterns do not matter, and a row that is counted matches. This holds for patterns without a star no longer than the row and for patterns ending in a star in which after each other star there are enough characters (bells <= characters + bells named + 3); with one star and no duplicates in sets a matching row is counted once. A last star followed by something must stand for at least one bell (12*34 does not match 1234), and outside the bound matches far back in the row are missed (*1* on eight bells: proved). process_rows gives the totals of each stroke; the score is the sum of counts times scores in the range of int. Runs and CRU patterns are those documented; runs at the front, and anywhere on at most 2n+4 bells, are all found. A pattern matched to the last bell reads behind the row (proved); if all patterns are shorter with no star but at the end, nothing outside the row is read.", "quantifier": "all patterns, rows and sequences of rows", "why_tests_cant": "All patterns.", "anchors": ["ringing/music.cpp:music_node::add", "ringing/music.cpp:music_node::match"]}
{"id": "C43", "title": "row_wildcard::count counts matching rows", "statement": "row_wildcard accepts exactly the patterns made of bell symbols, ?, * and sets [...], naming only bells in range if a number of bells is given. count(bells) ends and is the number of rows on that many bells the pattern describes (exactly up to 20 bells, modulo 2^64 beyond), if the pattern names only bells in range, each at most once outside sets and not in a set before that, has such a bell between any two separated stars, is no longer than the row and uses capitals. (Each condition is needed: 11* on four bells counts 2, [12]1 counts 4 instead of 2, *[345]* on five bells 0 instead of 120, *?* a number below zero, ????? on four bells 120, [Ee]* twice too many, and *[21][23]* throws: proved.)", "quantifier": "all valid patterns and stages", "why_tests_cant": "All patterns.", "anchors": ["ringing/row_wildcard.cpp:row_wildcard::possible_matches"]}
{"id": "C44", "title": "Integer helpers", "statement": "hcf is the greatest common divisor of positive ints (division by zero if an argument is 0) and lcm the least common multiple whenever the product fits an int; factorial and fibonacci are the mathematical functions modulo 2^32 (exact up to 12 and 46); ipower returns base^exp exactly when it fits 64 bits, with no earlier overflow, and 0 for negative exponents; is_prime decides primality; next_prime is the least larger prime if below 2^32.", "quantifier": "all arguments in range", "why_tests_cant": "Infinitely many inputs; a test samples a few rows/changes at a few stages.", "anchors": ["ringing/mathutils.cpp:hcf", "ringing/mathutils.h:lcm", "ringing/mathutils.cpp:factorial", "ringing/mathutils.cpp:fibonacci", "ringing/mathutils.cpp:ipower", "ringing/mathutils.cpp:is_prime", "ringing/mathutils.cpp:next_prime"]}
{"id": "C45", "title": "Named rows", "statement": "queens, kings, tittums, reverse rounds, cyclic and plain-bob lead heads are valid rows at every stage; queens lists odd bells then even bells, kings the odds backwards then evens, tittums interleaves the two halves, cyclic(n,h,c) rotates the working bells by c, pblh is the lead head of plain hunting.", "quantifier": "all stages and hunt-bell counts", "why_tests_cant": "Infinitely many inputs; a test samples a few rows/changes at a few stages.", "anchors": ["ringing/row.cpp:row::queens", "ringing/row.cpp:row::kings", "ringing/row.cpp:row::tittums", "ringing/row.cpp:row::cyclic", "ringing/row.cpp:row::pblh"]}
{"id": "C46", "title": "Plain bob lead head recognition", "statement": "ispblh(h) returns the least k with 1 <= k < n-h and r = pblh(n,h)^k, and 0 if there is none.", "quantifier": "all valid rows, all h", "why_tests_cant": "Infinitely many inputs; a test samples a few rows/changes at a few stages.", "anchors": ["ringing/row.cpp:row::ispblh"]}
{"id": "C47", "title": "row_block holds the successive rows", "statement": "A row_block over changes c starting from r contains r, r*c0, r*c0*c1, ..., with the number of rows given by its flags; recalculate(k) restores this for all rows after k; construction has no undefined behaviour except for a block from rounds that has no row at all (one change, half lead, no final lead head), where it always has.", "quantifier": "all change lists, rows and flags", "why_tests_cant": "Infinitely many inputs; a test samples a few rows/changes at a few stages.", "anchors": ["ringing/row.cpp:row_block::row_block", "ringing/row.cpp:row_block::recalculate"]}
{"id": "C48", "title": "Ordering and equality of rows and changes", "statement": "row and change comparisons are strict total orders consistent with ==, and equal rows hash equally; the four comparison operators are coherent.", "quantifier": "all rows and changes", "why_tests_cant": "Infinitely many inputs; a test samples a few rows/changes at a few stages.", "anchors": ["ringing/row.h:row::operator<", "ringing/change.h:change::operator<", "ringing/row.cpp:row::hash"]}
{"id": "C49", "title": "Core row operations are memory safe", "statement": "On valid rows and well-formed changes, operator*, operator/, inverse, applying a change, cycles and find never index outside the row's data.", "quantifier": "all valid rows and well-formed changes", "why_tests_cant": "An out-of-bounds access is undefined behaviour and may pass any test.", "anchors": ["ringing/row.cpp:row::operator*", "ringing/row.cpp:row::operator/", "ringing/row.cpp:row::inverse", "ringing/row.cpp:row::cycles"]}
{"id": "C50", "title": "Landau's function", "statement": "landau(n) is the largest order of a permutation of n objects for every n from 1 to 119, whatever the rounding of the floating-point bound on the primes (within a tenth); for n >= 120 the largest order exceeds 32 bits and no returned value can be right. (For n = 0 the bound is a NaN converted to unsigned, which is undefined.)", "quantifier": "all n with representable result", "why_tests_cant": "Infinitely many inputs; a test samples a few rows/changes at a few stages.", "anchors": ["ringing/mathutils.cpp:landau"]}
{"id": "C51", "title": "Named groups", "statement": "symmetric_group(nw,nh,nt) lists all nw! rows of the extent, alternating_group the even ones, trivial(nt) just rounds; cyclic_c and cyclic_r list the nw powers of the rotation or plain-hunt row; dihedral_c (nw >= 3) and dihedral_r for odd nw have exactly the 2nw elements of the dihedral group. (dihedral_r for even nw is, against its documentation, the cyclic group of order nw: proved.)", "quantifier": "all numbers of working bells, fixed trebles and total bells", "why_tests_cant": "Infinitely many inputs; a test samples a few rows/changes at a few stages.", "anchors": ["ringing/group.cpp:group::symmetric_group", "ringing/group.cpp:group::alternating_group", "ringing/group.cpp:group::dihedral_c", "ringing/group.cpp:group::dihedral_r", "ringing/group.cpp:group::cyclic_c", "ringing/group.cpp:group::cyclic_r", "ringing/group.cpp:group::trivial"]}
{"id": "C52", "title": "Hash of a row", "statement": "hash() separates all rows on up to 12 bells, whatever their numbers of bells, and all rows on the same number of bells up to 13 (64-bit size_t), so a hash set of such rows compares each row with at most itself.", "quantifier": "all pairs of rows", "why_tests_cant": "Infinitely many inputs; a test samples a few rows/changes at a few stages.", "anchors": ["ringing/row.cpp:row::hash"]}
{"id": "C53", "title": "A search stops when told", "statement": "The touches passed to an outputer are the first of those passed to one that never asks to halt, up to and including the first after which it asks to halt; if it never does, all of them.", "quantifier": "all outputers (with any state), methods, call sets, length ranges", "why_tests_cant": "Infinitely many inputs; a test samples a few rows/changes at a few stages.", "anchors": ["ringing/basic_search.cpp:basic_search::context::run_recursive", "ringing/search_base.cpp:search_base::run"]}
{"id": "C54", "title": "Names of methods", "statement": "classname(cl, year) is the words Differential and Little as flagged and the name of the class, with single spaces between them (hybrid is left out from 2019 on); it determines both flags and the class up to classes without a name. stagename names each stage differently (up to seven digits). fullname is the name, the class and the stage with single spaces, without the class for Grandsire, Union and their relatives, and two methods with the same full name are on the same number of bells. (A class number from 11 to 15 makes classname dereference a null pointer or read behind its table: proved.)", "quantifier": "all class numbers, years, stages, names and methods", "why_tests_cant": "Infinitely many inputs; a test samples a few rows/changes at a few stages.", "anchors": ["ringing/method.cpp:method::classname", "ringing/method.cpp:method::stagename", "ringing/method.cpp:method::fullname"]}
{"id": "C55", "title": "Lead head codes", "statement": "lhcode() is, for a method whose lead head is the k-th plain bob lead head with one or two hunt bells, k coprime to the number of working bells, and whose lead end has one of the right places (1sts or 2nds at the lead end with one hunt bell, none or 3rds at the first change with two), the letter and number of that lead head; for every other method on at least one bell it is z. On the same number of bells and hunt bells different lead heads or lead ends have different codes, none of them z. (For a method on no bells the function reads behind the lead head: proved.)", "quantifier": "all methods", "why_tests_cant": "Infinitely many inputs; a test samples a few rows/changes at a few stages.", "anchors": ["ringing/method.cpp:method::lhcode"]}
{"id": "C56", "title": "Smart pointers", "statement": "For every history of constructing, copying, assigning, swapping, resetting, writing through and destroying shared_pointers there is no double deletion and no use of freed memory; pointers that were copied from each other see the same object, an object is deleted exactly when its last pointer goes, and with the last pointer nothing is left allocated. cow_pointers and cloning_pointers behave as values: a write through one is seen by no other; a cloning_pointer or scoped_pointer is the only owner of its object unless it releases it. An operation in which an allocation fails throws and leaves all pointers as they were, except that reset of a default-constructed shared_pointer dereferences a null pointer then (proved).", "quantifier": "all histories of operations on any number of pointers, with allocation failing at any point", "why_tests_cant": "Histories are unbounded, and a failing allocation can come at any of them.", "anchors": ["ringing/pointers.h:shared_pointer", "ringing/pointers.h:cow_pointer", "ringing/pointers.h:cloning_pointer", "ringing/pointers.h:scoped_pointer"]}
{"id": "C57", "title": "gsiril proves what is rung", "statement": "For every gsiril script, if the proof of a composition ends normally, its verdict is: false if some row was rung (before endproof) more often than the number of extents allows; otherwise not round if the last of these rows is not rounds; otherwise too short if there are fewer rows than the minimum; otherwise true. It is aborted or broken exactly if an abort or break reaches the top. The rows rung follow each other by the changes and transpositions executed, starting from the starting row, whatever conditions, functions, interpolations and assignments the script contains; rowno and isrounds answer for these rows.", "quantifier": "all scripts, definitions, settings and contents of the library", "why_tests_cant": "Infinitely many inputs; a test samples a few rows/changes at a few stages.", "anchors": ["apps/gsiril/statement.cpp:prove_stmt::execute", "apps/gsiril/proof_context.cpp:proof_context", "apps/gsiril/expression.cpp", "apps/gsiril/functions.cpp"]}
{"id": "C58", "title": "Conditions do not ring", "statement": "Evaluating a condition, or a string with interpolated expressions, changes neither the current row nor the rows rung, the music counted, the symbols defined in the proof or whether the proof goes on, whatever the expression does, and no break or abort leaves a condition.", "quantifier": "all expressions, states and definitions", "why_tests_cant": "Infinitely many inputs; a test samples a few rows/changes at a few stages.", "anchors": ["apps/gsiril/expression.cpp:if_match_node::evaluate_condition", "apps/gsiril/proof_context.cpp:proof_context::silent_clone", "apps/gsiril/proof_context.cpp:proof_context::substitute_string"]}
{"id": "C59", "title": "Touches without conditions", "statement": "prove x, where x is made of place notation, lists, repetitions, products with a number, reversals and defined symbols, ends; its rows are those of the changes of x, in order, from rounds, a reversal reversing all changes in it at any depth; if conflict aborts (as by default), the proof is aborted exactly if some row occurs more often than there are extents, and otherwise the verdict is that of these rows. With the default definitions it prints exactly two lines: the number of rows and the last row, and whether the touch is true, does not come round, or was stopped at its first false row (nothing for a true touch with -q, nothing at all with -qq). As place notation x has exactly these changes.", "quantifier": "all such expressions of any depth, definitions and settings without node limit, music and maximal length", "why_tests_cant": "Infinitely many inputs; a test samples a few rows/changes at a few stages.", "anchors": ["apps/gsiril/expression.cpp:repeated_node::execute", "apps/gsiril/expression.cpp:list_node::execute", "apps/gsiril/expression.cpp:pn_node::execute", "apps/gsiril/statement.cpp:prove_stmt::execute"]}
{"id": "C60", "title": "Reading a lightweight library", "statement": "Iterating over a litelib gives, in order, exactly one entry for each line that is not blank and whose number of bells (the integer before the first colon of the first word, else the one asked for) is wanted: all lines with a non-zero number if 0 bells were asked for, otherwise the lines without a number, with number 0 or with the number asked for. Its place notation is the first word (behind the colon), its name the rest without blanks at the ends. A line with something else than an integer before a colon throws bad_lexical_cast when it is reached, after all entries before it. A byte order mark is skipped in a stream but (proved) not in a file; a file can be iterated over again with the same result, a stream gives nothing the second time.", "quantifier": "all file contents, numbers of bells and sizes", "why_tests_cant": "Infinitely many inputs; a test samples a few rows/changes at a few stages.", "anchors": ["ringing/litelib.cpp:litelib::impl::entry_type::readentry", "ringing/litelib.cpp:litelib::impl", "ringing/litelib.cpp:litelib::impl::skip_bom"]}
{"id": "C61", "title": "Writing and reading back a library", "statement": "What method_stream writes for a list of entries is read back by litelib as the same list of numbers of bells, place notations and names, whatever the name form; with the numbers of bells written, a library for b bells gives exactly those on b bells. Without them a library asked for the common number of bells gives all.", "quantifier": "all lists of entries whose place notation and names contain no blanks resp. line ends at the wrong places", "why_tests_cant": "Infinitely many inputs; a test samples a few rows/changes at a few stages.", "anchors": ["ringing/method_stream.cpp:method_stream::impl::append", "ringing/litelib.cpp:litelib::impl::entry_type::readentry"]}
{"id": "C62", "title": "Base name of a full name", "statement": "base_name of a full name as written by fullname is the name, for all classes and flags except that treble bob and treble place leave the word Treble, and Little with an empty class is kept (both proved); a full name that is only the stage is an access to the last character of an empty string (proved).", "quantifier": "all names that contain no class word or stage, all stages and classes", "why_tests_cant": "Infinitely many inputs; a test samples a few rows/changes at a few stages.", "anchors": ["ringing/litelib.cpp:litelib::impl::entry_type::base_name", "ringing/litelib.cpp:remove_suffix"]}
{"id": "C63", "title": "Finding methods in libraries", "statement": "For every library, whatever its format, load(name, stage) makes its method from the first entry whose name agrees when case is ignored and whose number of bells is the stage (any if the stage is 0), and throws invalid_argument if there is none; find(method) gives the first entry with exactly these changes and find(title) the first with this full title, or a null entry exactly if no entry has it.", "quantifier": "all libraries (any implementation of the virtual functions), names, stages and methods", "why_tests_cant": "Infinitely many inputs; a test samples a few rows/changes at a few stages.", "anchors": ["ringing/library.cpp:library_base::load", "ringing/library.cpp:library_base::find", "ringing/library.cpp:library"]}
{"id": "C64", "title": "A methodset is a finite map from changes", "statement": "After every history of appends, stores of payloads and clears a methodset holds for each sequence of changes the first entry appended with it since the last clear (with the payload stored last); find gives it or a null entry, iteration gives each once, in the lexicographic order of the changes, and size counts them. Appending a range reports the length of the range. Writing the set with method_stream, reading it with litelib and appending all to an empty set gives a set with the same methods.", "quantifier": "all histories of operations, all methods", "why_tests_cant": "Infinitely many inputs; a test samples a few rows/changes at a few stages.", "anchors": ["ringing/methodset.cpp:methodset::impl", "ringing/methodset.h:methodset"]}
{"id": "C65", "title": "Reading a MicroSiril library", "statement": "Iterating over an mslib gives one entry for each line name code pn, in order, up to the first line that does not have exactly two spaces or is the heading of a Central Council file; the number of bells is that of the last line beginning with a star (0 before). The place notation gets the last change: 2 for codes a to f, p and q, the text before a final z, otherwise 1, and stays as it is with a plus sign in front. A symmetric method written with its lead head code (one hunt bell) or its last change and z, or any method written in full with a plus sign, is read back as the same method.", "quantifier": "all file contents, all methods on up to 33 bells", "why_tests_cant": "Infinitely many inputs; a test samples a few rows/changes at a few stages.", "anchors": ["ringing/mslib.cpp:mslib::impl::entry_type::readentry", "ringing/mslib.cpp:mslib::impl::entry_type::pn", "ringing/method.cpp:method::lhcode"]}
{"id": "C66", "title": "Named and scored music strings", "statement": "add_named_music adds, behind the patterns there are, exactly the patterns the name stands for: the row itself for rounds, queens, kings, tittums and reverse-rounds; the six patterns of two of 4, 5, 6 and the other bells in order for CRUs; and for n-runs, front-n-runs and back-n-runs with 3 <= n <= bells the runs of n bells up and down; all with the given scores and with counts of 0. Every other name throws. add_scored_music_string reads h:pattern or h,b:pattern, a pattern alone scoring 1, with the name in angle brackets; two commas, or a comma without a colon, throw. A score with a plus sign is (proved) not read, and lengths of runs are (proved) taken modulo 2^32.", "quantifier": "all names and strings, scores, histories of the music object, up to 33 bells", "why_tests_cant": "Infinitely many inputs; a test samples a few rows/changes at a few stages.", "anchors": ["ringing/music.cpp:music::add_named_music", "ringing/music.cpp:music::add_scored_music_string", "ringing/music.cpp:read_len"]}
{"id": "C67", "title": "Symbols of false course heads", "statement": "On an even number of bells from 8, two course heads are in the same group when one or its inverse is turned into the other by plain bob lead heads and lead ends on both sides; lookup_symbol gives a row the name of its group, and the empty string exactly to rows in no named group; rows with treble and tenors in place always have one, on 8 bells all rows with the treble in place (so the assertion holds); equal names mean the same group. symbols() lists, increasing and once each, the names of the rows with the tenors together (and of the rows X, Y, Z themselves on 8 bells, other rows with split tenors being (proved) left out), and throws logic_error exactly in the three documented cases. Calls of optimise() change nothing. For a palindromic method with a 12 or 1n lead end and a plain bob lead head, a course with the tenors together has a row in common with the plain course if and only if lookup_symbol of its course head is among the symbols().", "quantifier": "all rows, all even numbers of bells from 8 to 255, all such methods, all histories of optimise", "why_tests_cant": "Infinitely many inputs; a test samples a few rows/changes at a few stages.", "anchors": ["ringing/falseness.cpp:false_courses::symbols", "ringing/falseness.cpp:false_courses::lookup_symbol", "ringing/falseness.cpp:false_courses::optimise", "ringing/falseness.dat"]}
{"id": "C68", "title": "gsiril expressions are read by one grammar", "statement": "The tokens of an expression are read as what the grammar spells, and only that: assignments bind least, then the comma, ||, &&, the comparisons, the merge, << and >>, + and -, then *, append, / and %; operators that bind equally are grouped from the right, whichever they are (so 10-3-2 is 10-(3-2)); then come counts and repeat, the reversal, !, defined, ++, --, echo and save, calls, brackets, arrays, alternatives in braces tried from the first, and single tokens. The reading is unique; what has no reading throws; the parser always ends. Tokens after the variable of ++, -- and save and the string of echo are (proved) ignored, empty braces are accepted and a semicolon right after an opening brace hides all alternatives behind it, and numbers are taken modulo 2^32.", "quantifier": "all lists of tokens of any length and depth, whatever the readers of quoted literals do", "why_tests_cant": "Infinitely many inputs; a test samples a few rows/changes at a few stages.", "anchors": ["apps/gsiril/parser.cpp:msparser::make_expr", "apps/gsiril/parser.cpp:msparser::find_one_of", "apps/gsiril/parser.cpp:msparser::is_enclosed", "apps/gsiril/parser.cpp:msparser::make_args", "apps/gsiril/parser.cpp:msparser::parse_list"]}
{"id": "C69", "title": "gsiril programs are split into statements by one grammar", "statement": "A stream of tokens is split into commands at line ends and semicolons outside brackets; comments and line ends inside brackets are dropped, a command that ends with a comma or . goes on behind the separator, and empty commands are skipped. Commands are read as the statement they say and only that: settings, rounds, row_mask, import, prove, echo/warn/error, music, if/elseif/else/endif and foreach/endfor nested to any depth, and the assignments =, ?= and :=. The reading is unique and takes exactly these commands off the stream, whatever follows; what says nothing throws. Every call answers and takes at least one token off a stream that is not empty, with an exception too, so the loop over a program ends. N to M rows is (proved) always rejected, a string that reads end ends the program, end inside a block becomes a null statement in it, and after a forbidden token the rest of the line is read as a command.", "quantifier": "all streams of tokens, any length and depth of nesting, MicroSiril syntax or not, import allowed or not", "why_tests_cant": "Infinitely many inputs; a test samples a few rows/changes at a few stages.", "anchors": ["apps/gsiril/parser.cpp:msparser::tokenise_command", "apps/gsiril/parser.cpp:msparser::parse_command", "apps/gsiril/parser.cpp:msparser::parse_if", "apps/gsiril/parser.cpp:msparser::parse_foreach", "apps/gsiril/parser.cpp:mstokeniser::validate"]}
{"id": "C70", "title": "gsiril input is split into tokens by one set of rules", "statement": "Every text is read as the tokens of which it consists by the lexical rules and as nothing else: blanks separate tokens; a comment goes to the end of the line; quoted strings, transpositions and (not in MicroSiril) patterns are closed on their line; operators of two characters are taken before those of one; & and + followed by place notation are a place notation literal as long as possible; names and numbers are as long as possible; names are in lower case if case is ignored; every other character is a token. The reading is unique and does not depend on other lines, reading always ends, and it fails only for place notation with a brace that is not closed before another one is opened or the line ends. Words with blanks between them are read as written. a+1 is (proved) a and the place notation +1, two divisions on a line are a pattern, a quote that is not closed is a token of its own, and braces within braces of place notation are never read.", "quantifier": "all texts, in MicroSiril syntax or not, with case ignored or not", "why_tests_cant": "Infinitely many inputs; a test samples a few rows/changes at a few stages.", "anchors": ["apps/utils/tokeniser.cpp:tokeniser::parse", "apps/utils/tokeniser.cpp:tokeniser::string_token::parse", "apps/gsiril/parser.cpp:mstokeniser", "apps/gsiril/parser.cpp:pn_impl", "apps/gsiril/parser.cpp:line_comment_impl", "ringing/place_notation.h:read_bell_expr"]}
{"id": "C71", "title": "What the statements of gsiril do", "statement": "A definition makes the symbol stand for the expression, and is remembered as the first one if nothing was defined before; ?= does so only if the symbol has no or an empty definition; := with the value the expression has now. N bells with 2 <= N <= 33 sets the number of bells, extends the starting row by the bells added or (with a warning) replaces it, and sets the line of hyphens; other numbers fail. rows, extents, rounds, row_mask and music change the setting they name and nothing else. if executes the block of the first condition that is true, foreach its block for every element in order with the name defined as the element; echo, warn and error print the value of the expression, error ending the program with code 1; prove counts the proof and fails the program unless the verdict is true or broken. Behind an imported module the number of bells, the mode and the first definition are what they were. A row mask that does not fit leaves (proved) the number of bells changed although N bells fails.", "quantifier": "all statements, nested to any depth, and all states", "why_tests_cant": "Infinitely many inputs; a test samples a few rows/changes at a few stages.", "anchors": ["apps/gsiril/statement.cpp:definition_stmt::execute", "apps/gsiril/statement.cpp:bells_stmt::execute", "apps/gsiril/statement.cpp:if_stmt::execute", "apps/gsiril/statement.cpp:foreach_stmt::execute", "apps/gsiril/statement.cpp:echo_stmt::execute", "apps/gsiril/statement.cpp:prove_stmt::execute", "apps/gsiril/statement.cpp:import_stmt::execute", "apps/gsiril/execution_context.cpp:execution_context"]}
{"id": "C72", "title": "gsiril runs a program statement by statement", "statement": "The statements of a program are executed in the order in which they are written, each read for the number of bells set by those before it, up to the end of the input or end, quit or exit. At the first statement that cannot be read or fails a program from a file ends with code 2 and an import fails, nothing behind it being executed; an interactive session leaves the statement out and goes on. The exit code is 1 if a proof failed and 0 otherwise; with -P or in MicroSiril mode a program that proves nothing proves its first definition at its end. The result does not depend on the budgets of the model. In an interactive session unreadable place notation is (proved) reported for ever; end in a block is undefined behaviour, and a break outside a proof ends the session with code 2.", "quantifier": "all programs of any length, all states, all error policies, modules importing modules to any depth", "why_tests_cant": "Infinitely many inputs; a test samples a few rows/changes at a few stages.", "anchors": ["apps/gsiril/parser.cpp:parser::run", "apps/gsiril/main.cpp:prove_stream", "apps/gsiril/main.cpp:prove_first_symbol", "apps/gsiril/main.cpp:main"]}
{"id": "C73", "title": "Literals of gsiril", "statement": "In place notation, transpositions and patterns {k} stands for the k-th bell, {N} for the last and {N-k} for the one k before it, and a..b for the bells between a and b in order, upwards or downwards; a text stands for at most one text, and texts without these for themselves. Place notation is read as the changes the grammar gives for that text, a transposition exactly if it is a row on at most as many bells as are set, extended by the other bells, a pattern exactly if it is a pattern with the symbols of these bells and matching brackets. Reading always ends. Bells are (proved) taken modulo 256 as {257} is the treble and {0} is printed as {256}, braces within braces are misread, and patterns with lower case letters for bells are rejected although place notation accepts them.", "quantifier": "all texts, all numbers of bells", "why_tests_cant": "Infinitely many inputs; a test samples a few rows/changes at a few stages.", "anchors": ["apps/gsiril/expression.cpp:parse_bell_expr", "apps/gsiril/expression.cpp:expand_bell_ranges", "apps/gsiril/expression.cpp:expand_bell_exprs", "apps/gsiril/expression.cpp:pn_node", "apps/gsiril/expression.cpp:transp_node", "apps/gsiril/expression.cpp:pattern_node", "apps/gsiril/expression.cpp:validate_regex"]}
{"id": "C74", "title": "gsiril from its start to its exit code", "statement": "gsiril starts with exactly the functions and the definitions of its script, then the texts of -S, the definitions of -D and the modules of -m in this order, and nothing of that counts as the first definition; -S without an equals sign ends it with code 2, -D with anything but one definition with code 3. Run without such arguments on a program that sets the number of bells, defines symbols of its own and proves an expression standing for a sequence of changes, it ends with the exit code and the report the rows of these changes deserve: code 0 exactly if no row occurs more often than there are extents and the last row is rounds, otherwise 1 with the number of rows and the last or first repeated row. crus is (proved) the same function as runs.", "quantifier": "all programs of this form, all initial arguments, all states, MicroSiril syntax or not", "why_tests_cant": "Infinitely many inputs; a test samples a few rows/changes at a few stages.", "anchors": ["apps/gsiril/main.cpp:initialise", "apps/gsiril/main.cpp:main", "apps/gsiril/functions.cpp:register_functions", "apps/gsiril/execution_context.cpp:execution_context", "apps/gsiril/init/gsiril.init"]}
{"id": "C75", "title": "gsiril as a filter for methods", "statement": "gsiril --filter, with the number of bells and a program that may define symbols and proves an expression, reads a library from its input and prints exactly those methods, in order, for which the touch is true, that is for which no row of the expression, read with the symbols for the lead head change and the lead of the method and its payload, occurs more often than there are extents and the last row is rounds. Each is printed with its payload as a line that is read back as the same method; the output is itself a library and filtering it again gives the same output. Entries that cannot be read or are empty are left out with one message each; a line with something else than a number before a colon ends gsiril with code 2 after what stands before it has been filtered; otherwise the exit code is 0. With --prove-one (proved) the second method ends gsiril with code 2, and with -P and a program that proves nothing every method but the first passes.", "quantifier": "all inputs of any length, all programs of this form, all names of the symbols, all numbers of bells up to 33 and of extents", "why_tests_cant": "Infinitely many inputs; a test samples a few rows/changes at a few stages.", "anchors": ["apps/gsiril/main.cpp:filter", "apps/gsiril/main.cpp:prove_stream", "apps/gsiril/main.cpp:main", "apps/gsiril/execution_context.cpp:execution_context::evaluate_string_var"]}
{"id": "C76", "title": "Symmetries of a method", "statement": "has_conventional_symmetry holds exactly when the method, rung round and round, reads the same forwards and backwards from some change; has_mirror_symmetry exactly when every change is its own reflection; has_glide_symmetry exactly when the length is even and the second half of the lead is the first half upside down; and, for methods of even length, has_rotational_symmetry exactly when the lead read backwards and upside down is the same lead from some starting point. The symmetry string has the letters P, M, G and R of these in this order. For odd lengths a rotational symmetry is always found, but one change is (proved) not looked at, so 34 on four bells is called symmetric; a method without changes is (proved) undefined behaviour.", "quantifier": "all methods of any length on up to 255 bells, all starting points", "why_tests_cant": "Infinitely many inputs; a test samples a few rows/changes at a few stages.", "anchors": ["apps/methsearch/methodutils.cpp:has_conventional_symmetry", "apps/methsearch/methodutils.cpp:has_mirror_symmetry", "apps/methsearch/methodutils.cpp:has_glide_symmetry", "apps/methsearch/methodutils.cpp:has_rotational_symmetry", "apps/methsearch/methodutils.cpp:method_symmetry_string"]}
{"id": "C77", "title": "Constraints of a method search", "statement": "is_cyclic_le holds exactly when the hunt bells are in place and the others are shifted cyclically, rounds excepted. is_division_false holds, with at least three changes in the division and unless the change ends it, exactly when the change leads to a row the division already has. is_too_many_places holds exactly when the change makes a place in which there have been more than the allowed consecutive blows since the offset given. has_consec_places holds exactly when more than the allowed number of adjacent bells stay in their places. division_bad_parity_hack at the end of a division is false exactly when at each stroke as many rows are even as are odd, and asserts elsewhere. A division of two changes that a third brings back to its start is (proved) not noticed; a lead head with nothing but hunt bells is (proved) undefined behaviour.", "quantifier": "all methods and divisions of any length, all changes, limits and offsets", "why_tests_cant": "Infinitely many inputs; a test samples a few rows/changes at a few stages.", "anchors": ["apps/methsearch/methodutils.cpp:is_cyclic_le", "apps/methsearch/methodutils.cpp:is_division_false", "apps/methsearch/methodutils.cpp:is_too_many_places", "apps/methsearch/methodutils.cpp:has_consec_places", "apps/methsearch/methodutils.cpp:division_bad_parity_hack"]}
{"id": "C78", "title": "Orders and counts in the output of methsearch", "statement": "compare_changes is, on up to 33 bells, the lexicographic order of the increasing lists of places, and orders the changes on a number of bells totally. tenors_together_coursing_order lists the bells from the tenor's coursing bell on as they follow each other, with the tenors adjacent, and throws exactly when no power of the lead brings them together. staticity is the number of pairs of consecutive changes and adjacent positions in which two bells swap or stay at both, and the largest number if some two do so throughout; has_points holds exactly when somewhere two bells swap an even number of times in a row, or throughout a lead of even length; has_unpaired_points is the same with adjacent places counted as swaps. Changes with places above the 33rd are (proved) not comparable, and whether dodging throughout is a point depends on how many leads the method is written with.", "quantifier": "all changes and methods of any length, rung round and round", "why_tests_cant": "Infinitely many inputs; a test samples a few rows/changes at a few stages.", "anchors": ["apps/methsearch/methodutils.cpp:compare_changes", "apps/methsearch/methodutils.cpp:tenors_together_coursing_order", "apps/methsearch/methodutils.cpp:find_dodges", "apps/methsearch/methodutils.cpp:staticity", "apps/methsearch/methodutils.cpp:has_points", "apps/methsearch/methodutils.cpp:has_unpaired_points"]}
{"id": "C79", "title": "Overwork, underwork and old lead head codes", "statement": "split_over_and_under always answers with two sequences of changes on the same bells in which the treble does what it does in the method: in the first all pairs from the treble up swap as in the method and the bells below it in pairs down from the treble, in the second the other way round. The two together determine the method. old_lhcode gives the code of a fixed table for the lead head and the change at the lead end on five and six bells and ? exactly when it has none; a code other than ? determines the lead head and that change. For a method without changes on five or six bells it is (proved) undefined behaviour.", "quantifier": "all methods of any length on 1 to 255 bells", "why_tests_cant": "Infinitely many inputs; a test samples a few rows/changes at a few stages.", "anchors": ["apps/methsearch/methodutils.cpp:split_over_and_under", "apps/methsearch/methodutils.cpp:old_lhcode"]}
{"id": "C80", "title": "The search for methods", "statement": "methsearch finds every lead it is asked for exactly once: those of the given length in which every change that the symmetry determines is the change it is determined by, turned upside down where it has to be, and every other change is one of those allowed there, agrees with --prefix and passes the tests when it is chosen, and of which every row and the whole lead pass their tests. They are found in the order of the first difference, and with a limit the first ones are found. --start-at with --symmetric (proved) loses methods, even the one given, and --limited-le with two hunt bells (proved) ends the search with an exception.", "quantifier": "all lists of changes allowed on any number of bells, all lengths of the lead, symmetries and limits, all tests; no even number of hunt bells", "why_tests_cant": "Infinitely many inputs; a test samples a few rows/changes at a few stages.", "anchors": ["apps/methsearch/search.cpp:searcher::general_recurse", "apps/methsearch/search.cpp:searcher::new_midlead_change", "apps/methsearch/search.cpp:searcher::push_change", "apps/methsearch/search.cpp:searcher::pop_change", "apps/methsearch/search.cpp:searcher::is_limited_le"]}
{"id": "C81", "title": "Symmetry of the methods found", "statement": "Every method found with --symmetric reads the same forwards and backwards from its half lead; with --double the second half of the lead is the first half upside down; with --rotational and a lead of more than four changes it reads the same backwards and upside down. Leads of four changes searched with --rotational are (proved) not made symmetric.", "quantifier": "all methods found by searches of any size", "why_tests_cant": "Infinitely many inputs; a test samples a few rows/changes at a few stages.", "anchors": ["apps/methsearch/search.cpp:searcher::general_recurse", "apps/methsearch/search.cpp:searcher::double_existing", "apps/methsearch/search.cpp:searcher::new_midlead_change"]}
{"id": "C82", "title": "The limit on consecutive blows in the search", "statement": "Searched with a limit on consecutive blows, without symmetry or palindromic with an odd number of hunt bells, exactly those methods are found that are found without it and in which, rung round and round, nobody stays in one place for more blows. With --rotational the blows across a quarter lead without a change of its own, without hunt bells those across the half lead are (proved) not tested, and with --floating-sym and --symmetric methods within the limit are (proved) lost.", "quantifier": "all methods found by searches of any size, all limits", "why_tests_cant": "Infinitely many inputs; a test samples a few rows/changes at a few stages.", "anchors": ["apps/methsearch/search.cpp:searcher::try_midlead_change", "apps/methsearch/search.cpp:searcher::try_leadend_change", "apps/methsearch/search.cpp:searcher::try_halflead_sym_change", "apps/methsearch/search.cpp:searcher::try_leadend_sym_change", "apps/methsearch/methodutils.cpp:is_too_many_places"]}
{"id": "C83", "title": "Falseness in methsearch", "statement": "might_support_extent and might_support_positive_extent end with true exactly when the lead heads (those in course) can be divided into two classes so that different leads with a row in common start from different classes; so they say true of every method leads of which make up an extent. is_cps of a method on eight bells or more is true exactly when no course in course with the tenors together other than the plain course shares a row with it; on fewer bells exactly one does, if the last change has an even number of swaps, and none otherwise. falseness_group_codes lists, in order and once each, the codes of the courses false against the plain course: with the tenors together, and on eight bells also the three with the tenors apart in the table. might_support_extent of a method whose treble does not plain hunt fails an assertion, and is_cps of an empty method on fewer than eight bells is (proved) undefined.", "quantifier": "all methods of any length on 1 to 255 bells; for is_cps and the codes, those whose lead head brings the tenor to every place but the first", "why_tests_cant": "Infinitely many inputs; a test samples a few rows/changes at a few stages.", "anchors": ["apps/methsearch/falseness.cpp:might_support_extent", "apps/methsearch/falseness.cpp:might_support_positive_extent", "apps/methsearch/falseness.cpp:falseness_analysis::recurse", "apps/methsearch/falseness.cpp:is_cps", "apps/methsearch/falseness.cpp:falseness_group_codes"]}
{"id": "C84", "title": "The changes allowed at each position of the lead", "statement": "With one hunt bell, methsearch uses at each position of the lead exactly the changes, each once and in the order of their places, which take the treble along its path (whatever its range and dodges), agree with a change of the mask above and with one below the treble where the mask has any, elsewhere observe -w and -f above and below, and satisfy -Fx, --changes, -l, -j and --mirror; if there are none it throws. So in every lead made of them the treble follows its path, which is the same backwards. A change of the mask that takes the treble elsewhere is (proved) undefined.", "quantifier": "all ranges, dodges and lengths of the lead, all masks and options, up to 33 bells", "why_tests_cant": "Infinitely many inputs; a test samples a few rows/changes at a few stages.", "anchors": ["apps/methsearch/mask.cpp:parse_mask", "apps/methsearch/mask.cpp:get_posn2", "apps/methsearch/mask.cpp:select_changes_above", "apps/methsearch/mask.cpp:select_changes_below", "apps/methsearch/mask.cpp:merge_changes"]}
{"id": "C85", "title": "The changes allowed in a principle", "statement": "For a principle methsearch uses at a position whose changes it finds the changes of the mask or, without any, exactly the changes that satisfy the options, each once and in the order of their places, and throws if there are none. The changes are (proved) found only for the first position, with -w the first two, and used throughout the lead: what the mask says of the others is ignored.", "quantifier": "all masks and options on 2 to 33 bells", "why_tests_cant": "Infinitely many inputs; a test samples a few rows/changes at a few stages.", "anchors": ["apps/methsearch/mask.cpp:parse_mask", "apps/methsearch/mask.cpp:select_changes_prin"]}
{"id": "C86", "title": "Expanding a mask", "statement": "methsearch expands a mask to exactly one list of changes above and one below the treble for each position of the lead: its blocks one after the other, with & reflected in their last change, and the * replaced by as many free positions as make the whole as long as the lead, or by as many as the part beside it across the / has. If the mask cannot be made to fit, has two parts of unknown length, or a / in a principle, an exception is thrown. A & without a change after it is (proved) undefined behaviour.", "quantifier": "all masks as lists of blocks of any number and size, all lengths of the lead (in all below 2^40)", "why_tests_cant": "Infinitely many inputs; a test samples a few rows/changes at a few stages.", "anchors": ["apps/methsearch/mask.cpp:read_and_expand_blocks", "apps/methsearch/mask.cpp:expand_block", "apps/methsearch/mask.cpp:read_block"]}
{"id": "C87", "title": "Masks and the symmetries asked for", "statement": "A mask is accepted with --symmetric or --double (or both) exactly when at any two positions which the symmetry relates, and for both of which it names changes, it names the same ones, reversed where the symmetry reverses; so with --rotational alone and an even number of hunt bells, but for the changes at the quarter leads. With one hunt bell and --rotational (proved) some masks are accepted that are not so. --changes is restricted to those whose reverse is among them too, or extended by the reverses if it excludes, when a symmetry reverses changes; if nothing is left it throws.", "quantifier": "all masks on any number of bells, all lengths of the lead, all sets of changes", "why_tests_cant": "Infinitely many inputs; a test samples a few rows/changes at a few stages.", "anchors": ["apps/methsearch/mask.cpp:is_mask_consistent", "apps/methsearch/mask.cpp:unordered_equal", "apps/methsearch/mask.cpp:reverse_allowed", "apps/methsearch/mask.cpp:restrict_changes", "apps/methsearch/mask.cpp:changes_have_double_symmetry"]}
{"id": "C88", "title": "Lengths with a unit", "statement": "A length read from a text (an integer, a decimal number, a fraction, or an integer and a fraction, with white space, perhaps a minus sign, and one of the names of the units) is exactly the value written, in lowest terms with a positive denominator; a length in lowest terms written and read again is the same, and *= and /= multiply and divide the value, all as long as it fits into an int. A length between minus one and zero is (proved) written without its sign, zero without its unit, which is not read, and the text 0/0 divides by zero.", "quantifier": "all texts of these forms of any length, all lengths in lowest terms, all factors", "why_tests_cant": "Infinitely many inputs; a test samples a few rows/changes at a few stages.", "anchors": ["ringing/dimension.cpp:dimension::read", "ringing/dimension.cpp:dimension::read_units", "ringing/dimension.cpp:dimension::reduce", "ringing/dimension.cpp:operator<<", "ringing/dimension.h:operator*=", "ringing/dimension.h:operator/="]}
{"id": "C89", "title": "Music in methsearch", "statement": "The rows methsearch searches for music are: for a course those after each change of as many leads as it takes to come round, which are those of its leads in another order; for a lead, its first half or its second half those before each change; and backwards from the row before the half-lead or the lead-end change those from there to the lead head, or to the half lead. The score of a method is the sum, over the blocks and patterns, of the matches in these rows times the scores of their strokes, if it fits into an int, whatever was analysed before. A course and a lead are (proved) given opposite strokes for the same rows; of a lead with an odd number of changes the first half has (proved) fewer rows than the same half backwards.", "quantifier": "all methods on up to 255 bells with leads of any length, all course heads, blocks and patterns that find all their matches", "why_tests_cant": "Infinitely many inputs; a test samples a few rows/changes at a few stages.", "anchors": ["apps/methsearch/music.cpp:musical_analysis::analyse", "ringing/row.h:row_permuter", "ringing/row.h:row_post_permuter", "ringing/music.h:process_rows"]}
{"id": "C90", "title": "Starting a search at a method", "statement": "With --start-at methsearch gives exactly the methods of the same search without it that are not before the method given, in the same order; with --limit the first of these. This holds if the method given is no longer than a lead, none of its changes is determined by the symmetry asked for, and each may be rung after the ones before it; otherwise methods after it can be (proved) lost.", "quantifier": "all searches with one hunt bell or none on up to 33 bells, all tests of rows, changes and leads, all methods to start at that satisfy this, all limits", "why_tests_cant": "Infinitely many inputs; a test samples a few rows/changes at a few stages.", "anchors": ["apps/methsearch/search.cpp:searcher::new_midlead_change", "apps/methsearch/search.cpp:searcher::is_acceptable_method", "apps/methsearch/search.cpp:searcher::general_recurse"]}
{"id": "C91", "title": "Row expressions", "statement": "The rows of an expression in rows, sets, groups, *, /, \\, ^ and - are, in order: the row; the rows of the set's elements one after the other; the group its generators generate, in increasing order; x*y, x/y, x\\y or y^-1 x y for every x on the left and y on the right, the right-hand side varying slowest; the n-th power of every x; and the rows on the left not on the right. Evaluation ends and every row is a row. This holds if in each product of two lists that on the left has no list nested in a set or group, nor one on the right of a ^, no single row has itself taken from it, and powers are of rows on up to 18 bells or with small exponents (see C04); otherwise rows can be (proved) lost.", "quantifier": "all expressions of any size and depth over rows of any number of bells that satisfy this", "why_tests_cant": "Infinitely many inputs; a test samples a few rows/changes at a few stages.", "anchors": ["apps/utils/row_calc.cpp:evaluate_binary_arguments", "apps/utils/row_calc.cpp:set_node", "apps/utils/row_calc.cpp:group_node", "apps/utils/row_calc.cpp:mult_node", "apps/utils/row_calc.cpp:exp_node", "apps/utils/row_calc.cpp:setdiff_node", "apps/utils/row_calc.cpp:const_iterator::increment"]}
{"id": "C92", "title": "Reading row expressions", "statement": "The tokens of an expression are read as that expression: - binds least, then *, / and \\, then ^; -, *, / and \\ group to the left, ^ to the right; (), {} and <> may be nested to any depth, and lists are split at their commas. An exponent of one character, or which is no row, or after +, is an integer. From such tokens the rows of C91 are evaluated. No negative power is ever read (proved): the - of 21^-1 is taken for that of a difference, and the text is refused.", "quantifier": "all expressions of any size and depth, all readings of a word as a row; for negative powers all lists of tokens", "why_tests_cant": "Infinitely many inputs; a test samples a few rows/changes at a few stages.", "anchors": ["apps/utils/row_calc.cpp:rc_parser::parse_expr", "apps/utils/row_calc.cpp:rc_parser::parse_set", "apps/utils/row_calc.cpp:rc_parser::parse_row_or_int", "apps/utils/row_calc.cpp:rc_parser::find_first", "apps/utils/row_calc.cpp:rc_parser::find_last", "apps/utils/row_calc.cpp:rc_parser::find_close_paren", "apps/utils/row_calc.cpp:rc_parser::is_enclosed"]}
{"id": "C93", "title": "Touches by a plan", "statement": "Given the method for each lead head, the search for touches ends whatever the range of lengths, and gives just the sequences of leads which start from rounds with calls from those allowed, have all lead heads in the plan and no lead head or lead end twice, come round, and are of at least the least length, and without their last lead less than the greatest; each once for its calls, as the nodes of its leads. A touch may (proved) be longer than the greatest length asked for, by less than a lead.", "quantifier": "all plans, sets of lead ends, lengths and calls on any number of bells, and ranges of lengths", "why_tests_cant": "Infinitely many inputs; a test samples a few rows/changes at a few stages.", "anchors": ["apps/touchsearch/join_plan_search.cpp:join_plan_search::context::run_recursive", "apps/touchsearch/join_plan_search.cpp:join_plan_search::context::run", "apps/touchsearch/join_plan_search.cpp:join_plan_search::context::init_call"]}
{"id": "C94", "title": "Printing touches", "statement": "The line for a touch on up to 58 bells has, for each lead in order and as often as it is repeated, the name of the first call that is the last change of the lead, or that of plain leads; without --comma-separate then ' x' and the least number of times the touch must be rung to come round, if not one, and the number of changes rung by then; with it the leads are written out until the touch first comes round, and nothing follows. With it a comma precedes every lead that is not empty, the first (proved) too.", "quantifier": "all touches with leads of any number and length, repeats, calls and names", "why_tests_cant": "Infinitely many inputs; a test samples a few rows/changes at a few stages.", "anchors": ["apps/touchsearch/main.cpp:print_touch::operator()", "apps/touchsearch/prog_args.cpp:arguments::generate_calls"]}
{"id": "C95", "title": "The extent program", "statement": "For numbers of bells up to 256, hunts and tenors the program extent ends and writes every row on the bells with the hunts first and the tenors last in their own places just once, in increasing order; with -i just those in course. Negative numbers, and more hunts and tenors than bells, are refused; more than 256 bells are not (proved: what is written is then no row).", "quantifier": "all numbers of bells, hunts and tenors", "why_tests_cant": "Infinitely many inputs; a test samples a few rows/changes at a few stages.", "anchors": ["apps/extent/extent.cpp:arguments::validate", "apps/extent/extent.cpp:main", "ringing/extent.cpp:extent_iterator::operator++"]}
{"id": "C96", "title": "Searching rows for music", "statement": "Of the rows read musgrep looks at those on the number of bells and, with -i or -o, in or out of course. It counts those that match one of the patterns, and if rows are to be written writes just these in order, or with -H all it looks at with these marked. Each pattern is counted at each stroke as often as the rows looked at at this stroke match it; the first row on the number of bells is at handstroke, and strokes alternate for every such row, whatever its course. For plain patterns, as in C42.", "quantifier": "all lists of rows, sets of plain patterns, numbers of bells and choices of course", "why_tests_cant": "Infinitely many inputs; a test samples a few rows/changes at a few stages.", "anchors": ["apps/musgrep/musgrep.cpp:main", "ringing/music.cpp:music::process_row"]}
{"id": "C97", "title": "Trimming text", "statement": "Text that is not all white space is trimmed by trim_whitespace of exactly the white space before and after it. For empty text and white space alone, as on an empty line given to rowcalc, the behaviour is (proved) undefined.", "quantifier": "all text", "why_tests_cant": "Infinitely many inputs; a test samples a few rows/changes at a few stages.", "anchors": ["apps/utils/stringutils.cpp:trim_whitespace", "apps/utils/stringutils.cpp:trim_trailing_whitespace", "apps/utils/stringutils.cpp:trim_leading_whitespace"]}
{"id": "C98", "title": "Grouping splices", "statement": "After pairs of methods have been saved with their splices, in any order, two methods are in the same set for a splice exactly if they are one method of a saved pair or joined by a chain of pairs saved with this splice; and no method is in two sets for the same splice.", "quantifier": "all lists of pairs of methods with their splices", "why_tests_cant": "Infinitely many inputs; a test samples a few rows/changes at a few stages.", "anchors": ["apps/splices/splices.cpp:splices::save_splice"]}
