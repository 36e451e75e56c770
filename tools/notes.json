{
 "C04": {
  "note": "values, distinctness and uniformity proved; throwing proved where lower+count is representable; otherwise the check itself overflows (C04_overflow_refuted)"
 },
 "C06": {
  "note": "proved for all lists of positive lengths, which is what the property quantifies over; C06_negative_refuted shows in addition that a negative length is undefined behaviour",
  "status": "proved"
 },
 "C07": {
  "note": "full claim holds for duplicate-free lists of fixpoints (C07_perm_fix, C07_uniform); repeated fixpoints are neither rejected nor handled (C07_duplicates_refuted)"
 },
 "C08": {
  "note": "proved where min-1, (min-1)*k and n-(min-1)*k are representable (or min > 0); otherwise undefined (C08_overflow_refuted)"
 },
 "C10": {
  "note": "sortedness, length and range proved for all four, uniformity for increasing and decreasing; the exact distribution of nonDecreasing and nonIncreasing is proved (number of arrangements divided by (upper-lower)^count), which is not uniform as documented (C10_weak_uniform_refuted, for all parameters)"
 },
 "C12": {
  "note": "0 < real() <= 1 proved, with the exact condition for 1; missing: 1 itself can be returned (C12_one_refuted)"
 },
 "C13": {
  "note": "result range and isPrime proved for upper != 2 where 4*(upper-lower) is representable; refuted otherwise (C13_upper_two_refuted, C13_wide_refuted); the result is a prime for upper <= 2^27 (C13_prime_below_partial), above that as far as C27 goes"
 },
 "C14": {
  "note": "box proved; general position proved only if p is prime (always for dim <= 67108863) and does not divide rotA^2+rotB^2; the code does not ensure the latter: C14_duplicates_refuted, C14_throws_refuted"
 },
 "C15": {
  "note": "all parts proved except rotate of an empty range (C15_rotate_empty_refuted); string needs a length of at most 2^32-1"
 },
 "C16": {
  "note": "for n >= 5 relative to hypotheses on the abstract floating point draw `scaled` (C88_range discharges them for formats of 64 digits); minimum needs upper-lower representable (C16_minimum_wide_refuted)"
 },
 "C17": {
  "note": "proved if no difference x-offset overflows (always for offset >= 0); otherwise undefined (C17_overflow_refuted)"
 },
 "C21": {
  "note": "iterator overloads proved; the container overload of allAdjacent computes noneAdjacent (C21_allAdjacent_container_refuted)"
 },
 "C23": {
  "note": "the property excludes step = -2^63, whose negation overflows in the code (C23_min_undefined: exactly if there is a number to return); C23_zero and C23_upper are step 0 and the overload with one argument"
 },
 "C25": {
  "note": "powMod proved except for n = 0, mod = 1, where it returns 1 (C25_powMod_mod_one_refuted)"
 },
 "C26": {
  "note": "complete for n >= 0; for negative n only sound: -1 is returned although an inverse exists (C26_multInv_negative_refuted)"
 },
 "C27": {
  "note": "no prime is rejected; exact below 2^27 (a composite n = p*m that passes has m = p modulo the order of a base modulo p, which leaves few candidates for the kernel to check, Lemmas/PrimeRange); exact below 2^63 only under the unproved hypothesis that the seven bases suffice"
 },
 "C28": {
  "note": "proved for windows of at most 0x3FFFFFFF with upper <= window^2 or upper <= 2^27; other windows depend on C27; windows of 2^30+8 or more are out of bounds (C28_wide_window_refuted)"
 },
 "C29": {
  "note": "every (strictly) convex polygon is accepted; the converse only under an added condition on the turns, as winding and degenerate polygons are accepted too (C29_winding_refuted, C29_degenerate_refuted). With isSimple the checks do decide convexity, see C90"
 },
 "C30": {
  "note": "for small coordinates the answer is right or the sum overflows; overflow does occur (C30_overflow_refuted)"
 },
 "C32": {
  "note": "C32_accepts: for all programs and both case modes exactly which inputs are accepted with which values, real numbers and expectReal (as the code has it, see C35) included; C32_shape: the input is the concatenation of the tokens with the separators asked for. The other theorems determine the bytes from the returned values where the values are the tokens: exactly on case sensitive streams, up to the case of letters on the others. Functions that read a real return a number and not its token, so for them the tokens of C32_accepts and C32_shape take this place"
 },
 "C35": {
  "note": "expectString and expectInt proved; expectReal is inverted (C35_expectReal_refuted)"
 },
 "C36": {
  "note": "shape, number of decimals and range proved; 007 and 7. are accepted (C36_leading_zeros_refuted)"
 },
 "C41": {
  "note": "the special separator NOSEP prints nothing between elements, as C41_join states"
 },
 "C45": {
  "note": "undirected graphs proved completely (degree is the number of distinct neighbours, as documented); for digraphs outDegree/inDegree count repeated edges once, although documented as numbers of edges (C45_degree_refuted, C45_degree_partial)"
 },
 "C46": {
  "note": "isDAG returns an order iff the graph has no edges (C46_actual), so every acyclic graph with an edge is refused (C46_isDAG_refuted); what is returned is a topological order (C46_sound_partial)"
 },
 "C47": {
  "note": "a vertex is returned exactly for directed trees, and it is the root (C47_isTree_partial); for some other graphs the non-vertex r is returned (C47_isTree_refuted)"
 },
 "C48": {
  "note": "every sequence of addEdge, eraseEdge, setMinId, normalize and copies, valid or not, from an empty graph; all observers. setMinId keeps the vertices within 64 bits (hypothesis). Edge pointers and iterators that outlive a call are not modelled"
 },
 "C49": {
  "note": "directed and undirected, as long as n*(n-1) is representable (n <= 3037000500; beyond that the computation overflows, C49_randomGraph_overflow); the graph is simple with m edges for every outcome, every set of m edges has probability 1/binomial(pairs, m); more edges than pairs throw"
 },
 "C50": {
  "note": "pruefer: bijection between codes and trees on [0, n), with the degrees; randomTree: a tree for every outcome and probability 1/n^(n-2) for each, undirected and directed (away from 0), for all n from 1 to 2^63-1. n = 0: empty graph, the directed version throws; a code with a value outside of [0, n) is undefined behaviour (C50_pruefer_range)"
 },
 "C51": {
  "note": "for non-negative sequences whose sum is below 2^63 and representable averageFlips*n: every outcome has the degrees, and it throws (always) if no such graph exists (theorem of Havel and Hakimi, proved). Refuted: a sequence of zeros throws in the first flip although the empty graph exists; negative numbers are taken for zeros"
 },
 "C52": {
  "note": "proved for all parameters within 64 bits: independent, clique, bipartite, star, path, cycle (from 3 on), lolly, broom, grid, hypercube. Partial: completeTree(level, c) is the tree of height level-1 from level 2 on (documented number of vertices refuted for all c >= 2), booleanLattice up to level 30 has only the covering pairs, from the larger to the smaller set (documented relation refuted; level 31 throws, more is undefined)"
 },
 "C53": {
  "note": "refuted for every n >= 3: n+2 vertices and no edge closing the cycle; C53_wheel_partial gives the graph that is returned"
 },
 "C54": {
  "note": "up to 2^30+1 vertices the edges of the Rado graph without those between i and 2^i, directed from the larger to the smaller vertex; refuted for every n >= 2; undefined from 2^30+2 vertices on"
 },
 "C55": {
  "note": "proved for all graphs: complement, reverse, undirected, directed, combine, append, product, cartesian, strongProduct, lineGraph, permutateEdges, permutate(), subgraph. Partial: power is exact for directed graphs; for undirected graphs every pair is stored twice (refuted), and it is proved that both orders of every pair at distance at most k are stored once and that operator[] lists every neighbour once, range only for graphs that start at vertex 0 (refuted otherwise), permutate(perm) only for permutations of the right length (refuted otherwise). transitiveClosure does not compile when instantiated and is not modelled"
 },
 "C56": {
  "note": "directed and undirected, as long as the number of vertices and of possible edges is representable; also uniform over all sets of k edges between the sides"
 },
 "C57": {
  "note": "for every state; the streams of a non-zero state and of its repeated jumps do not meet within 2^128 states (C57_disjoint)"
 },
 "C58": {
  "note": "exact period 2^256-1, bijectivity, one cycle through all non-zero states, no 64-bit seed leads to zero. The constructor taking an array accepts the zero state, which is a fixed point; it is outside the claim"
 },
 "C59": {
  "note": "all keys and blocks against a separate transcription of FIPS 197; all six multiplication tables and the substitution box"
 },
 "C60": {
  "note": "counter value after every number of calls, no repetition of cipher inputs (and texts) within 2^128 calls, seeds start at different blocks; also the exact wrap-around after 2^128 calls"
 },
 "C61": {
  "note": "decoder written from the RFCs returns the picture, for every image whose data fit into one chunk; larger images are refuted: the file is rejected"
 },
 "C62": {
  "note": "exact painted set for all end points and all blend modes; also: path has distinct pixels within half a pixel of the segment"
 },
 "C63": {
  "note": "exact painted set and termination for every image, mode and colour (also when the fill colour equals the old one)"
 },
 "C64": {
  "note": "refuted: never ends if a corner is in row 2 or above, wrong rows otherwise; the claim holds only for rectangles within row 1"
 },
 "C65": {
  "note": "saturation, totality, blend between the two colours, opaque results; refuted for scaling (alpha is scaled). Factors are rationals of size at most 2^54. SVG colours included"
 },
 "C66": {
  "note": "rational coordinates: contains everything drawn, smallest such box containing the origin, independent of the order"
 },
 "C67": {
  "note": "every simple polygon is accepted; exact decision for all polygons without spikes, for every shape of the search tree; never overflows; refuted for spikes (two consecutive edges that overlap), which are accepted"
 },
 "C68": {
  "note": "exact counts of all words over the period and exactly one occurrence of every quadruple; proved for every non-zero state"
 },
 "C69": {
  "note": "what remains of the settings when init itself throws is not described; the type Real and its parser are arbitrary"
 },
 "C70": {
  "note": "input validators: all of it. The others: sources, sensitivity and verdicts; their tolerances are refuted (always the default 1e-6, whatever the flags and settings say). Opening of files and the output streams are C105"
 },
 "C71": {
  "note": "count, box, width and height, distinct neighbours, no right turn for any three vertices, comparator, no overflow: for every binomial, sort and partition. The polygon can degenerate to a line (refuted). The rejection loop ends with probability one if binomial(n-2) can return (n-2)/2 (C71_ends); at the limit n = 8*dim-8 that the code asserts one iteration succeeds with a probability of at most (4/5)^(2*dim-2) (C71_limit). Not described: the law of the polygon, for which the documentation promises nothing"
 },
 "C72": {
  "note": "in exact real arithmetic with independent uniform real(): exponential, bounded exponential, normal and bounded normal have the named laws, ranges and exceptions. The parameter stddev is the variance (refuted for every value but 0 and 1). Missing: rounding of floating point numbers, infinite bounds"
 },
 "C73": {
  "note": "in exact real arithmetic with independent uniform real(): geometric, bounded geometric and the geometric method of binomial (min(p,1-p)*n < 10) have the named laws, with the probability of undefined runs; ranges and exceptions for everything. The rejection method for larger n has the binomial law and ends almost surely wherever its constants form a hat and a squeeze (C73_btrs_partial, C73_btrs_undefined_partial); these two facts about numbers are proved for n = 20, p = 1/2 (C73_btrs_twenty), not for all n and p. geometric(0) is undefined (refuted). Bounded binomial is binomial conditioned on the interval, up to the undefined runs (C73_binomialIn_partial); an interval without a possible result is not refused and the loop does not end (C73_binomialIn_endless). Missing: hat and squeeze in general, floating point"
 },
 "C74": {
  "note": "undirected: every graph has the product probability, given that the parameter binomial has the binomial law; C74_composed_partial and C74_bipartite_composed_partial compose this with the law of binomial itself (C73, exact arithmetic, parameters for which binomial uses geometric gaps), the _large theorems for the rejection method, given its hat and squeeze. Directed: refuted, there are only half as many trials as possible edges, every edge has probability p/2. Overflow for large n"
 },
 "C75": {
  "note": "for every distribution of the number of smaller neighbours (C75_law_partial). C75_composed_partial: the full law with p * real(0, i+1) in exact arithmetic; C75_assertion and C75_zero are the other values of p. C75_words: the law on the words of the engine in every floating point format, the numbers of neighbours being independent; their law is the stated one up to an explicit error of rounding (C75_degree_words, C75_degree_value). Exactly uniform numbers do not exist in floating point, so the statement remains partial there"
 },
 "C76": {
  "note": "edges and their order, sizes, absence of overflow, rejected arguments, the exact maximum flows (2^(n-1) and, for n >= 2, 5*2^(n-2)-2) and exactly 2^(n-1) augmentations by one in Ford-Fulkerson with depth first search proved; the documented flow 2^n is refuted for every n. Successive shortest paths on mcmfWorstcase: C99"
 },
 "C77": {
  "note": "proved for every binary format with rounding to nearest even (completeness of the absolute test without any error, soundness up to one or two roundings, special values, exceptions). The relative tolerance is refuted for differences that overflow (possible only if it exceeds one). Missing: the sign of zero, which cannot be observed"
 },
 "C78": {
  "note": "complete program: for every byte string, verdict 42 iff it is the text of a tree with 1 <= n < 100000 and 1 <= m < 200000, else 43; composition with randomTree and setMinId for 2 <= n < 100000. The messages written to juryOut are not modelled"
 },
 "C79": {
  "note": "Proved with an independent XML reader (Spec/Xml) for every list of items whose comments have no two hyphens in a row and whose texts have no markup; the notation of numbers is a parameter. Refuted for comments with two hyphens: the code does not check them and the file is malformed. Besides, the name of the encoding in the declaration is UTF8, which is not the registered name (not part of the statement)."
 },
 "C80": {
  "note": "std::from_chars and the arithmetic of Real are modelled with correct rounding (to nearest, ties to even) in an arbitrary binary format. What counts as a notation (Denotes) and as nearest is specified without the model; a text denotes at most one number. The tolerance part holds up to the rounding errors of floatEqual (C77), for formats with enough small numbers."
 },
 "C81": {
  "note": "Proved for formats with emin <= -19 and emax >= 0 (single, double and long double included), for the default precision; the sign of zero is not modelled. The claim about realStrict is proved for numbers at least half a millionth away from the bounds and refuted for the others: a number below the upper bound may be written as the bound, which realStrict rejects."
 },
 "C82": {
  "note": "Proved: errors, exactness and well-formedness (with C79). Refuted: the end of a line from 0 to 1234567 is written as 1.23457e+06 and lies outside of the written view box; 1234567 and 1234568 get the same text; a view box of size 4e-7 is written as 0.000000. Coordinates are rationals with exact arithmetic."
 },
 "C83": {
  "note": "Proved for pieces that are not newlines and not words that reach to the end of the input, and without exceptions for all. Refuted for the other two: at a newline the message names the following line (the counter is already advanced) while it shows the line that ends there; for a word at the end of the input nothing is written, because tellg fails once the end of the file was met."
 },
 "C84": {
  "note": "Proved for every format that contains 1 and 3/4 and has emin <= 1-p (single, double and long double). Every value of real() up to 1/2 ends real(upper); for real(lower, upper) every value up to 2^-(p+3), and up to 1/4 if the bounds have different signs. The sign of zero is not modelled. On independent uniform words both loops end with probability one (C84_upper_almost_surely, C84_range_almost_surely)."
 },
 "C85": {
  "note": "Counted over all pairs of words; the engine itself is the subject of C57 and C68."
 },
 "C86": {
  "note": "Proved except that the excerpts differ only if neither string contains the text [...] itself (C86_message_partial); C86_ellipsis_refuted is a pair of strings whose excerpts are the same."
 },
 "C87": {
  "note": "Proved for inputValidator, answerValidator, multipassInteractor and generator; for outputValidator and even numbers of interactor except that a team can make 2*ans overflow (C87_output_overflow_refuted). Refuted: inputValidator.constraints rejects every file, because it never reads a separator (C87_constraints_refuted); interactor accepts nothing if the number is odd (C87_interactor_refuted). outputValidator2.cpp does not compile (missing semicolon); with the semicolon it reads the solution of the team from the file of the jury: if the jury says Yes 6 it accepts nothing and a team that says Yes gets the verdict that the jury failed (C87_output2_refuted), if the jury says No it accepts exactly No (C87_output2_partial)."
 },
 "C88": {
  "note": "n < 5 exactly (C88_maximum_few, C88_minimum_few); n >= 5 in exact arithmetic with real() uniform (the two _partial theorems). C88_range: in a format of at least 64 digits the result is in the interval for every rounding of the power; C88_range_refuted: with at most 61 digits it is not."
 },
 "C89": {
  "note": "C89_graph and C89_digraph hold for every generator graph that agrees with an edge map (C49-C56 provide that); the families and random graphs are instances. Random::convex: see C71_accepted. Families beyond 2^32 vertices and random graphs beyond 2^31 are left out, their edge counts do not fit 64 bits."
 },
 "C90": {
  "note": "C90_isStrictlyConvex is the full statement for strict convexity. For isConvex the statement is refuted by a polygon with a spike that both checks accept (C90_spike_refuted); it holds for polygons without spikes (C90_isConvex_partial) and with SimplePolygon in place of the result of isSimple (C90_isConvex_simple)."
 },
 "C91": {
  "note": "C91_recipe is for every undirected graph, C91_output and C91_graph for the program. C91_isDAG records a consequence of C46: the validator's isDAG finds no order for any graph with an edge, so it rejects every output of this example."
 },
 "C92": {
  "note": "Exact probabilities in the model of uniform independent draws. C92_permutate speaks of the graph that a user observes through findEdge (observed), C92_permutateEdges of the list of edges, C92_subgraph of the kept edges; that the vertices and the map are right is C55."
 },
 "C93": {
  "note": "The SVG example is proved in full (points in exact arithmetic, text of numbers as in C82). The picture of the PNG example is right up to its last statement (C93_picture); that statement, fillRectangle over the whole picture, never ends (C64), so the example writes no file: refuted for every picture with at least one row (C93_png_refuted). Reading the numbers with >> is not modelled; the files are in C107."
 },
 "C94": {
  "note": "values, verdict and file for all programs that do not misuse constraints (C94_typed: those that use each name for one type; others never accept, C94_misuse). Bounds enclose integers, lengths and realStrict numbers (C94_bounds); refuted for real(lower, upper, constraint), whose tolerance lets a value beyond the logged bound pass (C94_real_bounds_refuted)."
 },
 "C95": {
  "note": "everything except views: for a view of elements of c1 append works exactly if the capacity suffices and reads freed memory otherwise (C95_view_refuted). Vectors are modelled with blocks and capacities; other containers, and what rvalue flatten leaves behind in the moved container, are not modelled."
 },
 "C96": {
  "note": "the folding changes by exclusive or when the first half of the block does, so all words have equally many blocks; the counter runs through all blocks (C60) and the cipher is a bijection (C59)"
 },
 "C97": {
  "note": "proved for the versions with and without __int128 (all random programs; mulMod, powMod, isPrime, primes, prime, nonCollinearPoints), for the sorted sequences and every sorting function, and for real(upper) if the bound has few digits; refuted for Random::convex, whose polygon depends on std::partition and on the order std::sort gives parallel edges (the law of the bag of edges does not depend on them, C97_convex_partial), and for real(upper) where long double has 53 digits instead of 64; the functions of the C++ library for floating point (log, exp, ...) are not modelled"
 },
 "C98": {
  "note": "the product measure of infinitely many uniform words; this is what the other statements about probabilities (expect, prob) mean for executions on words. That xoshiro and AES words behave like independent ones is not a theorem (C68 and C96 count single words)"
 },
 "C99": {
  "note": "Spec/MinCost is the textbook algorithm on the residual network; its flows are shown to have smallest cost for every network with non-negative costs (rounds_minCost) and it is shown to reach a largest flow (rounds_reach). Other minimum cost flow algorithms (network simplex, out-of-kilter) are not modelled"
 },
 "C100": {
  "note": "average over infinitely many independent uniform words; wordsUsed is shown to be the number of words taken by an execution that ends. Words, not running time"
 },
 "C101": {
  "note": "coordinates below 2^30 in absolute value, for larger ones cross can overflow"
 },
 "C102": {
  "note": "refuted: every result whose points are not on one line is such a polygon followed by its first vertex once more, so there are n+1 points (C102_result, for all executions; C102_count_refuted is a concrete one; the program prints n+1 points). The candidates of the sampling come from sin, cos and sqrt and are an arbitrary program here"
 },
 "C103": {
  "note": "refuted. For n < 47 it holds (C103_short). For n >= 47 and min >= 0 the program ends with n different values that are all of min..min+n but one (C103_values), so it is never the promised permutation (C103_permutation_refuted, for all n and min and executions). For negative minima the value -1 is taken for a missing value (C103_negative_refuted). That Java's sort is slow on the result is a claim about code outside of the repository"
 },
 "C104": {
  "note": "refuted: if the points are on a line (C104_line_refuted) or three points have a right angle at the last one (C104_angle_refuted) the function never returns, and it returns polygons that cross themselves for right angles (C104_simple_refuted) and for the direction (0, 0) (C104_zero_refuted); C104_points_uniform shows that all points can be sampled. For points in general position without right angles and a direction that is not zero the result is a simple polygon (C104_simple_partial). Whenever the function returns, the result has n points of the square (C104_points) and is a rearrangement of the sampled points (C104_permutation)"
 },
 "C105": {
  "note": "proved for single programs (C105_messages), one pass (C105_pass), all sequences of passes (C105_passes) and all executions of init (C105_init), except that the message files do not keep what was there before: MESSAGE_MODE is out|ate, which truncates (C105_kept_refuted), so only the messages of the last pass remain. What the program does in between is an arbitrary function of everything it can read. Not described: what is on disk if the program dies from an exception after init"
 },
 "C106": {
  "note": "proved: everything printed in the same expression (C106_now), rvalue containers, arrays and tuples (C106_rvalue), lvalue tuples (C106_tuple). Lvalue containers are stored as two iterators: exact behaviour in C106_lvalue, a reference only while size and block stay the same (C106_reference_partial), refuted for every vector that grows (C106_growth_refuted). Refuted also for rvalue views (C106_view_refuted) and for temporaries in braces (C106_list_refuted). The text of an element is a parameter; vectors are modelled with blocks and capacities, other containers are not"
 },
 "C107": {
  "note": "proved for pictures that are not empty, for both classes and all programs (C107_destroyed, C107_move, C107_visualizer), with the content of the file for PNG up to the size limit of C61 (C107_png_partial) and for SVG (C107_svg, C107_example). Refuted for empty pictures: no file is written and an old one remains (C107_empty_refuted). Assumes that image is only drawn to and that other images have other files; reading numbers from testIn and testAns is a parameter"
 },
 "C108": {
  "note": "patterns are given after parsing (the syntax of ECMAScript is not modelled), without negated classes, back references and assertions. C108_plain: an ordinary std::regex on such a stream is matched against the word in lower case, so Yes|No accepts nothing"
 },
 "C109": {
  "status": "partial",
  "note": "holds for polygon.cpp and javaSortHack.cpp (the values of the latter are those of C103). Refuted for convex.cpp: it writes n + 1 points, the first one twice (C109_convex_refuted). The validators that read the points are specifications (Spec/ArchiveMain), the archive has none"
 },
 "C110": {
  "note": "lengths of strings up to 2^32-1 (larger ones throw), ranges shorter than 2^63; doc/validate.md describes CONSONANT as b..zB..Z, the constant leaves out the vowels"
 },
 "C111": {
  "note": "exceptions of the standard library for lack of memory and the depth of the recursion of std::regex are not modelled; the streams are those of C31-C37"
 },
 "C112": {
  "note": "proved with explicit error bounds for every format in which 1 is a number and emin <= 1-p (all IEEE formats); t is rational. The bound is only useful if the bounds are not close together compared with their size: then the values of the format near them are few and the law cannot be nearly uniform"
 },
 "C113": {
  "note": "C113_independent holds for every function that takes words one after the other (Sequential); C113_rand, C113_real, C113_upper and C113_range show that the random functions do. exponential, geometric and normal are in C114 to C116, the geometric method of binomial in C117; the rejection method of binomial is not on words"
 },
 "C114": {
  "note": "std::log and std::log1p are arbitrary functions with a bounded relative error (Spec.Fp.LogWithin, Log1pWithin), such functions exist for every e > 0 (example). The law of exponential is stated with < from above and with <= from below, since rounding may put a value onto t. real() itself is the exact rational, its underflow below 2^-1074 is not modelled."
 },
 "C115": {
  "note": "C115_conditional and C115_ends hold for every Sequential function. The four instances leave the law of one iteration as it is; C112 says how close it is to the ideal one for real, C115_exponential_law and C115_geometric_law for the others (finite bounds whose difference does not overflow; differences of integers that are numbers of the format). That geometric(lower, upper, p) returns a value almost surely is not claimed: the sum may overflow, with probability about (1-p)^K"
 },
 "C116": {
  "note": "C116_normal_law: hypotheses of accuracy are collected in Spec.Fp.Accurate, an example shows that there are such functions for double precision with e = 2^-52. The law of the bounded variant is that of one iteration (C116_conditional, exact); C116_bounded_law bounds its distance to the conditioned normal distribution"
 },
 "C117": {
  "note": "C117_law, C117_law_explicit and C117_bounded_law for 0 < p <= 1/2, C117_law_swapped for p > 1/2 (C117_swap reduces everything else to p <= 1/2); C117_conditional holds for all parameters. The rejection method has to take its words one after the other and to end with probability one in the statements on the bounded variant. Refuted (C117_defined_refuted): for positive p up to 2^-65 the gap does not fit into 64 bits with probability about one half, std::llround is then undefined; the assertion accepts such p. The rejection method for larger expected values is a parameter"
 },
 "C118": {
  "note": "range for everything (C118_range), exact law of the loop in terms of one iteration (C118_iteration). That one iteration is near the binomial law in floating point is not shown (exact arithmetic: C73). Refuted (C118_defined_refuted): if real() returns 1 the method divides by zero and calls std::llround of an infinity, for every n and p with p*n >= 10"
 }
}
