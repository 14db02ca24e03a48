#!/usr/bin/env python3
"""Generates /verif/properties.jsonl (single source for the property texts)."""
import json, os
P = []
def p(title, statement, quantifier, why, anchors):
    P.append(dict(id="C%02d" % (len(P)+1), title=title, statement=statement,
                  quantifier=quantifier, why_tests_cant=why, anchors=anchors))
INF = "Infinitely many inputs; a test samples a few rows/changes at a few stages."
p("Row multiplication is composition, with padding",
  "For valid rows a, b, c on possibly different numbers of bells: a*b is a valid row on max(a.bells(), b.bells()) bells; reading it as a permutation of all positions (bells beyond the end staying home) (a*b) is 'b first, then a', i.e. (a*b)[i] = a[b[i]]; multiplication is associative, and rounds on no more bells is a two-sided identity.",
  "all valid rows a, b, c of all (mixed) stages", INF,
  ["ringing/row.cpp:row::operator*", "ringing/row.cpp:row::operator*="])
p("Row inverse and division are a group inverse and right division",
  "r*r.inverse() and r.inverse()*r are rounds; (a*b).inverse() = b.inverse()*a.inverse(); (a/b)*b is a padded to the larger stage; a/b = a*b.inverse() as data; a/a is rounds.",
  "all valid rows of all (mixed) stages", INF,
  ["ringing/row.cpp:row::inverse", "ringing/row.cpp:row::operator/"])
p("Rows are validated on construction: accepted exactly when a permutation",
  "row(vector<bell>) accepts the data unchanged exactly when it is a permutation of the first n bells and otherwise throws row::invalid; row(string) does so for the bells the string spells and throws bell::invalid on a non-bell; resize pads with rounds or truncates, throwing iff the truncation is not a permutation.",
  "all bell vectors and all strings", "The set of malformed inputs is infinite.",
  ["ringing/row.cpp:row::validate", "ringing/row.cpp:row::row(string)", "ringing/row.cpp:row::resize"])
p("row::power is repeated multiplication for every integer exponent",
  "power(0) is rounds, power(n+1) = r*power(n), power(-n) = inverse().power(n), including the large-exponent shortcut that reduces n modulo the order; power(m+n) = power(m)*power(n).",
  "all valid rows and all integer exponents representable without overflow of -n", "Exponents and rows are unbounded; the shortcut only triggers for n > bells^2.",
  ["ringing/row.cpp:row::power"])
p("row::order is the least positive period",
  "For a valid row, order() is positive, power(order()) is rounds, and no smaller positive power is rounds; r^k is rounds iff order() divides k; no int overflow happens in the computation at up to 48 bells.",
  "all valid rows", INF, ["ringing/row.cpp:row::order", "ringing/mathutils.h:lcm"])
p("row::sign is the parity of the permutation",
  "sign() is +1 for even and -1 for odd permutations (the mathematical sign), hence sign(a*b)=sign(a)*sign(b), sign(rounds)=1, and applying a change multiplies the sign by change::sign().",
  "all valid rows and all changes", INF, ["ringing/row.cpp:row::sign", "ringing/row.cpp:row::cycles", "ringing/change.cpp:change::sign"])
p("Cycle structure functions agree with the permutation",
  "cycle_size(b) is the least k>0 such that following the row k times from b returns to b (for b in range; out of range is undefined behaviour); num_cycles() counts the orbits; cycles() lists every bell exactly once, grouped by orbit, in order of traversal.",
  "all valid rows, all bells", INF, ["ringing/row.cpp:row::cycle_size", "ringing/row.cpp:row::num_cycles", "ringing/row.cpp:row::cycles"])
p("are_conjugate and conjugator decide and witness conjugacy",
  "On up to 33 bells, are_conjugate(x,y) is true exactly when some row r has y = r^-1 x r, and then conjugator(x,y) is such an r; otherwise conjugator returns the empty row. Whatever order std::sort leaves equal-length cycles in.",
  "all pairs of valid rows on at most 33 bells, and all orders std::sort may choose among ties", "Quantifies over all pairs and over unspecified sort order.",
  ["ringing/row.cpp:conjugator", "ringing/row.cpp:are_conjugate", "ringing/row.cpp:conjugacy_class_vector"])
p("Bell symbols round-trip",
  "Writing a bell with operator<< (symbol, or {n} beyond the symbol table) and reading it with read_extended gives back the bell and consumes exactly what was written; read_char is case-insensitive on the default table, reads I as 1 and O as 0, and throws exactly on characters that are not symbols.",
  "all 256 bell values followed by arbitrary text; all characters", "The text following the symbol is arbitrary.",
  ["ringing/bell.cpp:bell::read_extended", "ringing/bell.cpp:bell::read_char", "ringing/bell.cpp:operator<<"])
p("Row print/parse round trip",
  "The string written by operator<< for a valid row parses back to the same row at any stage; print() parses back for rows on at most 33 bells; distinct rows print differently.",
  "all valid rows up to 256 bells", INF, ["ringing/row.cpp:row::print", "ringing/row.cpp:operator<<", "ringing/row.cpp:row::row(string)"])
p("Change construction from place notation",
  "change(n, places) accepts exactly the strictly increasing place lists below n in which the bells left between consecutive places can be paired (an odd gap before the first place meaning an implicit place at lead, an odd gap at the end meaning an implicit place at the back); the result makes exactly those places and swaps all other neighbours in pairs; X, x and - make the cross.",
  "all stages up to 255 bells and all place lists/strings", INF,
  ["ringing/change.cpp:change::change", "ringing/change.cpp:append_swaps_between"])
p("Change print/parse round trip",
  "For every change made through the API, change(n, c.print(flags)) == c for every cross style, and change(n, c.places()) == c.",
  "all well-formed changes up to 255 bells and all flags", INF, ["ringing/change.cpp:change::print", "ringing/change.cpp:change::places"])
p("Changes act as involutions on rows, consistently with positions",
  "Applying a change to a row swaps exactly the pairs in the change: (r*c)[i] = r[i*c]; it preserves validity; applying it twice restores the row; the position map i -> i*c is an involution that moves each position by at most one; row()*c (as permutation) acts by multiplication: r*c = r*(rounds*c).",
  "all valid rows, all well-formed changes, all positions", INF,
  ["ringing/row.cpp:operator*=(row&,change)", "ringing/change.cpp:operator*=(bell&,change)"])
p("swappair toggles a pair and keeps the change well-formed",
  "swappair(w) on a well-formed change throws out_of_range iff w+2 > bells, otherwise removes the swap at w if present (returning false) or installs it replacing the overlapping neighbours (returning true), keeping the change well-formed, without undefined behaviour.",
  "all well-formed changes and all w", "All reachable sequences of swappair calls; the faulty case reads one past the end of a vector, which a test usually does not notice.",
  ["ringing/change.cpp:change::swappair"])
p("Places, swaps and internal places are reported consistently",
  "findswap(i) holds iff the change swaps positions i,i+1; findplace(i) iff the bell in place i stays; places() lists exactly those positions increasingly and count_places() counts them; internal() iff a place other than lead and back is made (3 or more bells); have_same_places iff some common place.",
  "all well-formed changes, all positions", INF, ["ringing/change.cpp:change::findswap", "ringing/change.cpp:change::findplace", "ringing/change.cpp:change::internal", "ringing/change.cpp:have_same_places"])
p("Reversing a change",
  "c.reverse() swaps i,i+1 exactly when c swaps n-2-i,n-1-i; reverse is an involution, keeps the sign, and equals conjugation of the change by reverse rounds.",
  "all well-formed changes", INF, ["ringing/change.cpp:change::reverse"])
p("Method place notation format/parse round trip",
  "For every method whose changes are well-formed, parsing method.format(flags) on the same number of bells yields the same changes, for every flag combination without M_OMIT_LH; with M_OMIT_LH it yields the changes without the last one.",
  "all methods (any length, any stage up to 33 bells on the default symbols), all format flags", "Interaction of symmetry detection, dots, external-place omission and cross style over unbounded methods.",
  ["ringing/method.cpp:method::format", "ringing/place_notation.h:interpret_pn"])
p("Place notation parsing: meaning and rejection",
  "interpret_pn yields, for each comma-separated block, its changes, followed for & blocks by the mirror image without the last change; it always terminates; on malformed text it throws and never emits an ill-formed change.",
  "all strings, all stages", "All strings.", ["ringing/place_notation.h:interpret_pn"])
p("Lead head and number of leads",
  "method::lh() is the row obtained from rounds by ringing all the changes; leads() is the least k>0 such that ringing the method k times from any row comes back to it.",
  "all methods", INF, ["ringing/method.cpp:method::lh", "ringing/method.cpp:method::leads"])
p("Palindromic symmetry detection",
  "issym() iff the length is even and the changes are palindromic about the half lead and lead end; symmetry_point() returns the least i < n/2 about which the changes are palindromic (i and i+n/2 the fixed points) and -1 if none or odd length; ispalindromic() iff symmetry_point() != -1; in an issym method the lead head is a product of two involutions (half lead and lead end conjugates).",
  "all methods", INF, ["ringing/method.cpp:method::issym", "ringing/method.cpp:method::symmetry_point", "ringing/method.cpp:method::is_palindromic_about"])
p("Simple method predicates",
  "isdouble() iff the second half of the changes is the first half reversed top to bottom; huntbells() counts the fixed bells of the lead head; hasplaces(b) iff bell b makes two consecutive blows in an internal place during the lead; isplain(b) iff b's path over the lead plain hunts; maxblows() is the longest run of consecutive blows in one place within the (cyclic) lead.",
  "all methods, all bells", INF, ["ringing/method.cpp:method::isdouble", "ringing/method.cpp:method::huntbells", "ringing/method.cpp:method::hasplaces", "ringing/method.cpp:method::isplain", "ringing/method.cpp:method::maxblows"])
p("Method classification is defined for every method",
  "methclass() and hasdodges() return without undefined behaviour on every method, and methclass() reports a principle exactly when no bell is fixed by the lead head.",
  "all methods", "The faulty read is one past the end of the lead head and happens only for some lead heads.", ["ringing/method.cpp:method::methclass", "ringing/method.cpp:method::hasdodges"])
p("Indexing the extent",
  "nth_row_of_extent and position_in_extent are mutually inverse bijections between [0, nw!) and the rows with nw working bells (nh fixed trebles, the rest fixed tenors), and are monotone for lexicographic order.",
  "all nw, nh, nt with nh+nw <= nt, all indices and all rows", "nw! rows; overflow of factorial appears only at large stages.",
  ["ringing/extent.cpp:nth_row_of_extent", "ringing/extent.cpp:position_in_extent", "ringing/mathutils.cpp:factorial"])
p("Extent iteration visits every row exactly once in order",
  "Incrementing extent_iterator from the beginning visits, in strictly increasing lexicographic order, every row on nt bells permuting exactly the nw working bells, each exactly once, and is the end iterator after exactly nw! steps; decrementing undoes incrementing, including decrementing the end iterator.",
  "all nw, nh, nt", INF, ["ringing/extent.cpp:extent_iterator::operator++", "ringing/extent.cpp:extent_iterator::operator--"])
p("In-course extent",
  "incourse_extent_iterator visits exactly the even rows of the extent in order; nth_row_of_incourse_extent(n) is the n-th of these and position_in_incourse_extent inverts it; sign_of_nth_row_of_extent(n) is the sign of nth_row_of_extent(n).",
  "all nw, nh, nt, n", INF, ["ringing/extent.cpp:incourse_extent_iterator::operator++", "ringing/extent.cpp:nth_row_of_incourse_extent", "ringing/extent.cpp:sign_of_nth_row_of_extent"])
p("changes_iterator enumerates all changes",
  "changes_iterator visits every non-empty well-formed change on nt bells that leaves all but the nw working places fixed exactly once, then ends, without undefined behaviour.",
  "all nw, nh, nt", INF, ["ringing/extent.cpp:changes_iterator::next"])
p("Prover: truth means no row too often",
  "After any sequence of add_row / remove_row calls (removing only present rows), count_row is the number of occurrences, size the number of rows, duplicates the number of surplus occurrences, and truth() is true iff no row occurs more than max_occurs times; add_row returns truth().",
  "all histories of add_row and remove_row", "All histories.", ["ringing/proof.cpp:prover::add_row", "ringing/proof.cpp:prover::remove_row", "ringing/proof.cpp:prover::count_row"])
p("Prover branches behave like copies",
  "A prover obtained by create_branch gives the same answers (count_row, size, duplicates, truth, add_row) as an independent copy of the original would, as long as the original is not modified.",
  "all histories before and after branching, all depths of chaining", "All histories.", ["ringing/proof.cpp:prover::create_branch"])
p("Prover failure information",
  "The failinfo list contains, for exactly the rows occurring more than max_occurs times, the line numbers at which the row occurs.",
  "all histories", "All histories, and all insertion positions the standard allows a multimap with hint.", ["ringing/proof.cpp:prover::add_row", "ringing/proof.cpp:prover::remove_row"])
p("proof::prove",
  "proof is true iff no row occurs more than max times among the true and unknown blocks together, both in quick and full mode; in full mode failed() describes all repeated rows.",
  "all sequences of rows, all max, both modes", "All sequences.", ["ringing/proof.h:proof::prove"])
p("group(generators) is the generated subgroup",
  "The constructed group lists, in strictly increasing order, exactly the rows that are products of generators (on the largest number of bells), contains rounds, and is closed under multiplication and inverse; construction terminates.",
  "all finite lists of valid rows", INF, ["ringing/group.cpp:generate_group", "ringing/group.cpp:group::group"])
p("Derived groups",
  "conjugate(r) is {r^-1 g r}, even_subgroup() the even elements; both are groups, sorted; invariants() lists exactly the bells fixed by every element; direct_product(a,b) is the group of all independent combinations, of size a.size()*b.size().",
  "all groups, all rows", INF, ["ringing/group.cpp:group::conjugate", "ringing/group.cpp:group::even_subgroup", "ringing/group.cpp:group::invariants", "ringing/group.cpp:group::direct_product"])
p("Coset labels",
  "rcoset_label(r) is the lexicographically least element of the right coset Gr and lcoset_label(r) of rG; labels are equal iff the cosets are; the fast path for products of symmetric groups returns the same label.",
  "all groups, all rows on the same stage", INF, ["ringing/group.cpp:group::rcoset_label", "ringing/group.cpp:group::lcoset_label", "ringing/group.cpp:is_direct_product_of_symmetric_groups"])
p("Falseness tables are exact",
  "A lead of A starting at row r and a lead of B starting at row s share a row iff s = r*f for an f in the table of (A,B) (with no flags restricting); with the flags the table is the corresponding subset: fixed treble, in-course, out-of-course.",
  "all methods / row lists, all flags, all lead heads", INF, ["ringing/falseness.cpp:falseness_table::init"])
p("False course heads are exact",
  "c is listed by false_courses(m) (no flags) iff c fixes treble and tenor and the course starting from c shares a row with the plain course.",
  "all methods in which treble is a hunt bell and the lead head moves the tenor through all leads", INF, ["ringing/falseness.cpp:false_courses::initialiser::process"])
p("Multiplication table agrees with row multiplication",
  "For a table over a set of rows closed under the multiplications used, find(find(r)*compute_post_mult(x)) = find-representative of r*x, similarly for pre-multiplication, modulo the part-end group; adding columns never disturbs earlier columns.",
  "all row sets, all part-end groups, all histories of column additions", "All histories of column additions.", ["ringing/multtab.cpp:multtab::compute_post_mult", "ringing/multtab.cpp:multtab::find", "ringing/multtab.cpp:multtab::make_representative"])
p("Touch iteration flattens the tree",
  "Iterating a touch from begin() to end() yields the changes of the tree in order, each child repeated its count of times, and terminates, when every repeated child is non-empty and every count positive.",
  "all touch trees of any depth", "Unbounded trees.", ["ringing/touch.cpp:touch_child_list::iterator::operator++", "ringing/touch.cpp:touch_changes::iterator"])
p("basic_search outputs only true round touches",
  "Every touch passed to the outputer comes round at its end and contains no row twice, and its number of leads is within the range, provided a single lead is true and all lead heads keep the treble fixed.",
  "all methods, call sets, length ranges", "All search trees.", ["ringing/basic_search.cpp:basic_search::context::run_recursive"])
p("basic_search finds every true touch",
  "Every true round touch (first return to rounds at its end) within the length range is output; with ignore_rotations, a rotation of it is output.",
  "all methods, call sets, length ranges", "All search trees.", ["ringing/basic_search.cpp:basic_search::context::is_possibly_canonical"])
p("basic_search outputs each touch once",
  "No touch is output twice; with ignore_rotations no two outputs are rotations of each other.",
  "all methods, call sets, length ranges", "Needs a long enough non-canonical touch; small tests pass.", ["ringing/basic_search.cpp:basic_search::context::is_really_canonical", "ringing/basic_search.cpp:basic_search::context::output_touches"])
p("table_search agrees with the specification of touches",
  "With a trivial part-end group, table_search outputs only true round touches within the length range and finds all of them (up to rotation with ignore_rotations); lengths given in changes are converted to leads without excluding or admitting a touch wrongly.",
  "all methods, call sets, ranges, flags", "All search trees.", ["ringing/table_search.cpp:table_search::context::run_recursive", "ringing/table_search.cpp:range_div"])
p("Music patterns count matching rows",
  "process_row increments a pattern's count iff the row matches the pattern read as: bell symbol = that bell, ? = any bell, [..] = one of, * = any run of bells, short patterns having an implied trailing *; scores are counts times the stroke's score.",
  "all patterns, rows and sequences of rows", "All patterns.", ["ringing/music.cpp:music_node::add", "ringing/music.cpp:music_node::match"])
p("row_wildcard::count counts matching rows",
  "count(bells) is the number of rows on that many bells matching the pattern.",
  "all valid patterns and stages", "All patterns.", ["ringing/row_wildcard.cpp:row_wildcard::possible_matches"])
p("Integer helpers",
  "hcf is the greatest common divisor and lcm the least common multiple of positive ints; factorial, fibonacci and ipower are the mathematical functions modulo 2^32 (2^64 wrap for ipower excluded); is_prime, next_prime and landau are the mathematical ones.",
  "all arguments in range", INF, ["ringing/mathutils.cpp:hcf", "ringing/mathutils.h:lcm", "ringing/mathutils.cpp:factorial", "ringing/mathutils.cpp:fibonacci", "ringing/mathutils.cpp:ipower", "ringing/mathutils.cpp:is_prime", "ringing/mathutils.cpp:landau"])
p("Named rows",
  "queens, kings, tittums, reverse rounds, cyclic and plain-bob lead heads are valid rows at every stage; queens lists odd bells then even bells, kings the odds backwards then evens, tittums interleaves the two halves, cyclic(n,h,c) rotates the working bells by c, pblh is the lead head of plain hunting.",
  "all stages and hunt-bell counts", INF, ["ringing/row.cpp:row::queens", "ringing/row.cpp:row::kings", "ringing/row.cpp:row::tittums", "ringing/row.cpp:row::cyclic", "ringing/row.cpp:row::pblh"])
p("Plain bob lead head recognition",
  "ispblh(h) returns the least k with 1 <= k < n-h and r = pblh(n,h)^k, and 0 if there is none.",
  "all valid rows, all h", INF, ["ringing/row.cpp:row::ispblh"])
p("row_block holds the successive rows",
  "A row_block over changes c starting from r contains r, r*c0, r*c0*c1, ..., with the number of rows given by its flags; recalculate(k) restores this for all rows after k; construction has no undefined behaviour.",
  "all change lists, rows and flags", INF, ["ringing/row.cpp:row_block::row_block", "ringing/row.cpp:row_block::recalculate"])
p("Ordering and equality of rows and changes",
  "row and change comparisons are strict total orders consistent with ==, and equal rows hash equally; the four comparison operators are coherent.",
  "all rows and changes", INF, ["ringing/row.h:row::operator<", "ringing/change.h:change::operator<", "ringing/row.cpp:row::hash"])
p("Core row operations are memory safe",
  "On valid rows and well-formed changes, operator*, operator/, inverse, applying a change, cycles and find never index outside the row's data.",
  "all valid rows and well-formed changes", "An out-of-bounds access is undefined behaviour and may pass any test.", ["ringing/row.cpp:row::operator*", "ringing/row.cpp:row::operator/", "ringing/row.cpp:row::inverse", "ringing/row.cpp:row::cycles"])
# Statements made exact after reading the code: where the code violates the natural property, the
# boundary (and what happens beyond it) is part of the statement.
FIX = {
"C27": "After any sequence of add_row, remove_row, create_branch (continuing on the branch) and disable_proving calls, with or without failure information and wherever the library puts equal rows: count_row is the number of occurrences, size the number of rows, duplicates the number of surplus occurrences; add_row returns truth(); remove_row throws logic_error, changing nothing, iff the row was not added since the last branch; and (without branches or disabling) truth() is true iff no row occurs more than max_occurs times (or that is -1).",
"C28": "A branch of a prover whose truth() is true answers every sequence of additions, and of removals of rows added since the branch, exactly as an independent copy would (results, count_row, size, duplicates, truth), as long as the original is not modified. (A branch of a false prover claims truth, and rows from before the branch cannot be removed: both proved.)",
"C29": "After any sequence of add_row calls the failinfo list contains, once and for exactly the rows occurring more than max_occurs times, all the line numbers at which the row occurs. (With removals stale entries and wrong lines appear, and on branches the lines before the branch are missing: proved.)",
"C30": "prove() is true iff no row occurs more than max times among the true and unknown blocks together, both in quick and full mode; in full mode failed() is empty for a true touch and for a false one has a single entry, the row at which the touch first becomes false with its lines up to there. The constructors answer the same but failed() is then always empty, and for a false touch in full mode they have undefined behaviour (a member is used before it is constructed).",
"C03": "row(vector<bell>) accepts the data unchanged exactly when it is a permutation of the first n bells and otherwise throws row::invalid; row(string) does so for the bells the string spells and throws bell::invalid on a non-bell; row(int n) is rounds for n <= 256 (beyond, it is silently not a row); resize (to at most 256 bells) pads with rounds or truncates, throwing iff the truncation is not a permutation.",
"C04": "On up to 58 bells (where the order fits an int), power(n) is the n-fold product for every integer n whenever n, or n reduced modulo the order, is at most bells^2 in absolute value - in particular always on up to 18 bells - and in every other case (possible from 19 bells) it never returns; exponents add.",
"C05": "For a valid row on up to 58 bells, order() is positive, following the row order() times is rounds, and no smaller positive number of times is; r^k is rounds iff order() divides k; no int overflow happens in the computation.",
"C08": "For rows on the same number of bells, are_conjugate(x,y) is true exactly when some row r has y = r^-1 x r; on up to 33 bells conjugator(x,y) is then such an r, and otherwise the empty row (above 33 bells it throws bell::invalid for conjugate rows). Whatever order std::sort leaves equal-length cycles in. Rows on different numbers of bells are never reported conjugate.",
"C09": "Writing a bell with operator<< (symbol, or {n} beyond the symbol table) and reading it with read_extended gives back the bell and consumes exactly what was written; read_char is case-insensitive on the default table, reads I as 1 and O as 0, and throws exactly on characters that are not symbols (NUL counting as a symbol); read_extended never returns anything but an 8-bit bell, though it accepts {0} and {} as bell 255.",
"C14": "swappair(w) on a well-formed change throws out_of_range iff w+2 > bells, otherwise removes the swap at w if present (returning false) or installs it replacing the overlapping neighbours (returning true), keeping the change well-formed; the only undefined behaviour is when the pair is absent and the change's last pair is the one just below it, and then it always happens.",
"C17": "For every method whose changes are well-formed, parsing method.format(flags) as a C string on the same number of bells yields the same changes, for every flag combination without M_OMIT_LH, and with M_OMIT_LH the changes without the last one (undefined behaviour exactly when there is no change to omit); on up to 33 bells parsing it as a std::string gives the same.",
"C18": "A C string is accepted as place notation exactly when it follows the grammar (blocks separated by commas; a leading + or & ; changes separated by dots or crosses; & blocks followed by their mirror image without the last change), and then means what the grammar says; parsing always ends, throws on anything else, has no undefined behaviour and never emits an ill-formed change. For a std::string without { the result is the same; with a bracketed bell it can dereference the end iterator.",
"C19": "method::lh() is the row obtained from rounds by ringing all the changes; on up to 58 bells leads() is the least k>0 such that ringing the method k times from any row comes back to it.",
"C21": "isdouble() iff the second half of the changes is the first half reversed top to bottom; huntbells() counts the fixed bells of the lead head; hasplaces(b) iff bell b makes two consecutive blows in an internal place during the lead; isplain(b) iff b's path over the lead plain hunts; maxblows() is the longest run of consecutive blows in one place within the (cyclic) lead, or -1 if no place is made.",
"C22": "methclass() returns a class and flags which are those of the definitions of the Framework / the older Decisions as the code implements them, for every method, whatever the memory just beyond the lead head (which it reads for every principle and every method with lead head rounds) contains - except before 2019 on one bell, where the class depends on that memory; each method has exactly one class, and it is principle exactly when no bell is fixed by the lead head; hasdodges() recognises dodges in every non-empty method and divides by zero on an empty one.",
"C23": "For up to 13 working bells (and nh+nw <= 255) nth_row_of_extent and position_in_extent are mutually inverse bijections between [0, nw!) and the rows with nw working bells (nh fixed trebles, the rest fixed tenors); position_in_extent is monotone for lexicographic order and below nw! for up to 20 working bells, refuses rows not in the extent, and treats a row on too few bells as padded if there are no tenors (with tenors: undefined behaviour). With 14 working bells nth_row_of_extent is wrong.",
"C24": "Incrementing extent_iterator from the beginning visits, in strictly increasing lexicographic order, every row on nt bells permuting exactly the nw working bells, each exactly once, and is the end iterator after exactly nw! steps; decrementing undoes incrementing between rows; decrementing the end iterator finds the last row but the iterator remains equal to end() and further decrements do not move it.",
"C25": "incourse_extent_iterator visits exactly the even rows of the extent in order and then ends; for up to 13 working bells nth_row_of_incourse_extent(n) is the n-th of these and position_in_incourse_extent inverts it (positions are monotone for up to 20); sign_of_nth_row_of_extent(n) is the sign of nth_row_of_extent(n) and of the row at position n.",
"C26": "changes_iterator visits every well-formed change on nt <= 255 bells that leaves all but the nw working places fixed (the identity included) exactly once, fibonacci-many in all, then ends, without undefined behaviour.",
"C44": "hcf is the greatest common divisor of positive ints (division by zero if an argument is 0) and lcm the least common multiple whenever the product fits an int; factorial and fibonacci are the mathematical functions modulo 2^32 (exact up to 12 and 46); ipower returns base^exp exactly when it fits 64 bits, with no earlier overflow, and 0 for negative exponents; is_prime decides primality; next_prime is the least larger prime if below 2^32.",
"C47": "A row_block over changes c starting from r contains r, r*c0, r*c0*c1, ..., with the number of rows given by its flags; recalculate(k) restores this for all rows after k; construction has no undefined behaviour except for a block from rounds that has no row at all (one change, half lead, no final lead head), where it always has.",
}
for x in P:
    if x["id"] in FIX: x["statement"] = FIX[x["id"]]
for x in P:
    if x["id"] == "C44": x["anchors"] = [a for a in x["anchors"] if "landau" not in a] + ["ringing/mathutils.cpp:next_prime"]
p("Landau's function",
  "landau(n) is the largest order of a permutation of n objects, for every n whose largest order fits 32 bits.",
  "all n with representable result", INF, ["ringing/mathutils.cpp:landau"])
exec(open(os.path.join(os.path.dirname(__file__), "props_more.py")).read()) if os.path.exists(os.path.join(os.path.dirname(__file__), "props_more.py")) else None
with open("/verif/properties.jsonl", "w") as f:
    for x in P: f.write(json.dumps(x) + "\n")
print(len(P))
