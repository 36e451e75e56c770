{"id": "C01", "title": "Random::integer stays in range", "statement": "Random::integer(lower, upper) returns a value v with lower <= v < upper for every pair lower < upper of 64-bit integers (including ranges wider than 2^63), performs no signed overflow, and throws invalid_argument exactly when lower >= upper.", "quantifier": "for all 64-bit lower, upper and every sequence of 64-bit words the random engine may produce", "why_tests_cant": "2^128 argument pairs times all engine outputs; off-by-one errors at the rejection threshold show up with probability about 2^-64", "anchors": ["src/validate.h: Random::integer", "src/validate.h: details::mulMod"]}
{"id": "C02", "title": "Random::integer is exactly uniform", "statement": "Every value of [lower, upper) is hit by exactly the same number of non-rejected 64-bit engine words, namely floor(2^64/(upper-lower)); in particular a rejected draw occurs for fewer than half of the engine words.", "quantifier": "for all ranges of size 1..2^64-1 and all 2^64 engine words", "why_tests_cant": "statistical tests cannot see a bias below 2^-30; an exact count over 2^64 words cannot be enumerated", "anchors": ["src/validate.h: Random::integer"]}
{"id": "C03", "title": "Random::shuffle yields permutations, all equally likely", "statement": "Random::shuffle leaves a rearrangement of the given range (same multiset, same length), and the map from the sequence of bounded draws to the resulting arrangement is a bijection onto all n! arrangements, so each arrangement is equally likely when the draws are uniform.", "quantifier": "for all ranges of every length and every sequence of draws", "why_tests_cant": "n! arrangements for every n; the classic off-by-one Fisher-Yates bias is invisible to membership tests", "anchors": ["src/validate.h: Random::shuffle"]}
{"id": "C04", "title": "Random::distinct returns distinct values", "statement": "Random::distinct(count, lower, upper) returns exactly count pairwise different values, all in [lower, upper); it throws exactly when count < 0 or fewer than count values exist; each ordered selection arises from exactly one sequence of bounded draws.", "quantifier": "for all counts, all bounds and all random outcomes", "why_tests_cant": "sparse Fisher-Yates bookkeeping fails only on particular coincidences of draws", "anchors": ["src/validate.h: Random::distinct"]}
{"id": "C05", "title": "Random::perm is a uniform permutation", "statement": "Random::perm(count, offset) returns each of offset..offset+count-1 exactly once, and every permutation is produced by exactly one sequence of draws.", "quantifier": "for all counts, offsets and all random outcomes", "why_tests_cant": "n! results, every n", "anchors": ["src/validate.h: Random::perm(Integer, Integer)"]}
{"id": "C06", "title": "Random::perm(cycles) has the requested cycle type", "statement": "Random::perm(cycles, offset) returns a permutation of [offset, offset+sum) whose cycle decomposition has exactly the given cycle lengths.", "quantifier": "for all lists of positive cycle lengths and all random outcomes", "why_tests_cant": "cycle structure is a global property of the output and depends on all draws", "anchors": ["src/validate.h: Random::perm(const std::vector<Integer>&, Integer)"]}
{"id": "C07", "title": "Random::perm(count, fix) keeps fixpoints", "statement": "Random::perm(count, fix, offset) returns a permutation of [offset, offset+count) in which every listed element is a fixpoint.", "quantifier": "for all counts, offsets, lists fix of elements of the range (including repeated ones) and all random outcomes", "why_tests_cant": "fails only for special fix lists (repeated entries)", "anchors": ["src/validate.h: Random::perm(Integer, const std::vector<Integer>&, Integer)"]}
{"id": "C08", "title": "Random::partition sums up", "statement": "Random::partition(n, k, min) returns k summands, each at least min, that add up to exactly n, for every random outcome, whenever its documented preconditions hold.", "quantifier": "for all n, k, min (also negative min) and all random outcomes", "why_tests_cant": "a sum/minimum violation can depend on the drawn cut points", "anchors": ["src/validate.h: Random::partition"]}
{"id": "C09", "title": "Random::bracketSequence is balanced and uniform", "statement": "Random::bracketSequence(n, o, c) returns a balanced string of n opening and n closing brackets; the probability of each balanced sequence is the same when the bounded draws are uniform.", "quantifier": "for all n and all random outcomes", "why_tests_cant": "Catalan(n) many outputs for every n; a wrong acceptance probability is not visible in single outputs", "anchors": ["src/validate.h: Random::bracketSequence"]}
{"id": "C10", "title": "Sorted random sequences", "statement": "Random::increasing/decreasing return strictly sorted sequences of the requested length inside [lower, upper); Random::nonDecreasing/nonIncreasing return weakly sorted ones; each possible output of each of these functions is equally likely, as documented.", "quantifier": "for all counts, bounds and random outcomes", "why_tests_cant": "depends on all draws", "anchors": ["src/validate.h: Random::increasing", "src/validate.h: Random::nonDecreasing", "src/validate.h: Random::decreasing", "src/validate.h: Random::nonIncreasing", "src/validate.h: Random::multiple"]}
{"id": "C11", "title": "Random::discrete follows the weights", "statement": "Random::discrete(weights) returns a valid index, never one of weight 0, and index i is selected by exactly weight[i] of the sum(weights) equally likely draws.", "quantifier": "for all weight lists with non-negative weights and positive total, all draws", "why_tests_cant": "zero-weight entries and prefix boundaries are measure-zero events for sampling tests", "anchors": ["src/validate.h: Random::discrete"]}
{"id": "C12", "title": "Random::real lies in [0,1)", "statement": "Random::real() returns a value x with 0 <= x < 1 for every output of the random engine, as documented.", "quantifier": "for every sequence of 64-bit engine words", "why_tests_cant": "the rounding case leading to exactly 1.0 has probability about 2^-54", "anchors": ["src/validate.h: Random::real()"]}
{"id": "C13", "title": "Random::prime is a prime inside the range", "statement": "Random::prime(lower, upper), if it returns, returns a number p with lower <= p < upper that passes isPrime; it never returns anything else.", "quantifier": "for all lower, upper and all random outcomes", "why_tests_cant": "violations only at special bounds such as upper = 2", "anchors": ["src/validate.h: Random::prime"]}
{"id": "C14", "title": "Random::nonCollinearPoints are in general position", "statement": "Random::nonCollinearPoints(n, dim) returns n distinct points with coordinates in (-dim, dim), no three on a line, for all documented arguments 0 <= n < dim.", "quantifier": "for all n, dim and all random outcomes", "why_tests_cant": "number-theoretic coincidences (p = 1 mod 4 with a singular rotation) occur rarely", "anchors": ["src/validate.h: Random::nonCollinearPoints"]}
{"id": "C15", "title": "Random::select, rotate, string, multiple", "statement": "Random::select returns an element of the container; Random::rotate returns a cyclic rotation of the range; Random::string has the requested length and only characters of the alphabet; Random::multiple has the requested length and values in range.", "quantifier": "for all containers and random outcomes", "why_tests_cant": "depends on all draws", "anchors": ["src/validate.h: Random::select", "src/validate.h: Random::rotate", "src/validate.h: Random::string", "src/validate.h: Random::multiple"]}
{"id": "C16", "title": "Random::maximum / minimum / minmax stay in range", "statement": "Random::maximum(lower, upper, n) and Random::minimum return values of [lower, upper); Random::minmax(n, ...) returns the maximum for n > 0, the minimum of -n draws for n < 0 and throws for n = 0; for small n the maximum is exactly the largest of n uniform draws.", "quantifier": "for all bounds, n and random outcomes", "why_tests_cant": "extreme-value branches depend on floating point and huge bounds", "anchors": ["src/validate.h: Random::maximum", "src/validate.h: Random::minimum", "src/validate.h: Random::minmax"]}
{"id": "C17", "title": "isPerm decides permutations", "statement": "isPerm(range, offset) is true iff the range contains each of offset..offset+size-1 exactly once; if false, the reported witness is an element that is out of range or occurs twice.", "quantifier": "for all finite ranges of integers and all offsets", "why_tests_cant": "infinitely many ranges", "anchors": ["src/validate.h: isPerm(ForwardIt, ForwardIt, T)"]}
{"id": "C18", "title": "isPerm(A, B) decides multiset equality", "statement": "isPerm(A, B) is true iff A is a rearrangement of B; if the answer is negative although both ranges have the same size, it carries an element of A as witness.", "quantifier": "for all pairs of finite ranges", "why_tests_cant": "infinitely many ranges", "anchors": ["src/validate.h: isPerm(ForwardItA, ForwardItA, ForwardItB, ForwardItB)"]}
{"id": "C19", "title": "Sortedness predicates", "statement": "areIncreasing / areDecreasing / areNonIncreasing / areNonDecreasing are true iff the whole sequence is sorted accordingly; the witness is the position of the first violation.", "quantifier": "for all finite sequences", "why_tests_cant": "infinitely many sequences", "anchors": ["src/validate.h: areIncreasing", "src/validate.h: areDecreasing", "src/validate.h: areNonIncreasing", "src/validate.h: areNonDecreasing", "src/validate.h: anyAdjacent"]}
{"id": "C20", "title": "areDistinct decides distinctness", "statement": "areDistinct(range) is true iff no two elements are equal; a negative answer carries an element that occurs at least twice.", "quantifier": "for all finite sequences", "why_tests_cant": "infinitely many sequences", "anchors": ["src/validate.h: areDistinct"]}
{"id": "C21", "title": "allAdjacent quantifies over adjacent pairs", "statement": "allAdjacent(range, p) is true iff p holds for all pairs of neighbouring elements; anyAdjacent iff for some; noneAdjacent iff for none; the container overloads agree with the iterator overloads.", "quantifier": "for all finite sequences and all predicates", "why_tests_cant": "the container overload of allAdjacent is a template which tests may never instantiate", "anchors": ["src/validate.h: anyAdjacent", "src/validate.h: noneAdjacent", "src/validate.h: allAdjacent"]}
{"id": "C22", "title": "Case handling and string comparison", "statement": "toLower/toUpper change exactly ASCII letters and nothing else, are idempotent and inverse on letters, and stringEqual(a, b, false) holds iff a and b are equal up to ASCII case, stringEqual(a, b, true) iff a and b are identical.", "quantifier": "for all byte strings", "why_tests_cant": "infinitely many strings", "anchors": ["src/validate.h: toLower", "src/validate.h: toUpper", "src/validate.h: stringEqual", "src/validate.h: isToken"]}
{"id": "C23", "title": "range enumerates arithmetic progressions", "statement": "range(from, to, step) returns exactly from, from+step, ... strictly before to (below for positive, above for negative step), without overflow, for bounds anywhere in the 64-bit range.", "quantifier": "for all 64-bit from, to, step (step different from 0 and -2^63)", "why_tests_cant": "2^192 arguments; overflow only near the ends of the 64-bit range", "anchors": ["src/validate.h: range"]}
{"id": "C24", "title": "thueMorse", "statement": "thueMorse(i) satisfies t(0)=0, t(2i)=t(i), t(2i+1)=1-t(i) for all 64-bit i.", "quantifier": "for all 64-bit arguments", "why_tests_cant": "2^64 arguments", "anchors": ["src/validate.h: thueMorse"]}
{"id": "C25", "title": "Modular multiplication and power are exact", "statement": "mulMod(a,b,m) = a*b mod m and powMod(b,e,m) = b^e mod m, result in [0,m), for all 64-bit arguments with m > 0, e >= 0 - without overflow in the 128-bit and in the 64-bit fallback code path.", "quantifier": "for all 64-bit arguments", "why_tests_cant": "2^192 arguments, overflow only in corners", "anchors": ["src/validate.h: mulMod", "src/validate.h: powMod", "src/validate.h: applyMod", "src/validate.h: details::mulMod", "src/validate.h: details::powMod"]}
{"id": "C26", "title": "multInv returns the modular inverse", "statement": "multInv(n, m) returns the x in [0,m) with n*x = 1 mod m if n and m are coprime and -1 otherwise.", "quantifier": "for all 64-bit n and m > 0", "why_tests_cant": "2^127 arguments", "anchors": ["src/validate.h: multInv", "src/validate.h: details::extendedEuclid"]}
{"id": "C27", "title": "isPrime never rejects a prime, never accepts small composites", "statement": "isPrime(n) is true for every prime n; if isPrime(n) is false then n is not prime; every accepted n is a prime.", "quantifier": "for all 64-bit integers", "why_tests_cant": "2^64 arguments; strong pseudoprimes are extremely sparse", "anchors": ["src/validate.h: isPrime", "src/validate.h: details::powMod"]}
{"id": "C28", "title": "primes lists exactly the primes", "statement": "primes(lower, upper) returns in increasing order exactly the primes p with lower <= p < upper.", "quantifier": "for all bounds in the 64-bit range", "why_tests_cant": "sieve index errors depend on parity and position of the window", "anchors": ["src/validate.h: primes"]}
{"id": "C29", "title": "Convexity predicates", "statement": "isStrictlyConvex(points) accepts exactly the strictly convex polygons in counter-clockwise order; isConvex accepts exactly the convex polygons in counter-clockwise order.", "quantifier": "for all polygons with bounded integer coordinates", "why_tests_cant": "infinitely many polygons; failures need collinear or self-winding configurations", "anchors": ["src/validate.h: isConvex", "src/validate.h: isStrictlyConvex", "src/validate.h: details::assertBounds"]}
{"id": "C30", "title": "isCCW is the sign of the enclosed area", "statement": "isCCW(points) holds iff the doubled signed area of the polygon is positive; it does not depend on the starting vertex, and flips under reversal unless the area is zero.", "quantifier": "for all polygons with bounded integer coordinates", "why_tests_cant": "infinitely many polygons; overflow only in corners", "anchors": ["src/validate.h: isCCW", "src/validate.h: cross"]}
{"id": "C31", "title": "Strict integer tokens are canonical", "statement": "InputStream::integer(lower, upper) on a space sensitive stream accepts exactly the canonical decimal spelling (no sign other than one minus, no leading zeros, no -0) of a 64-bit integer v with lower <= v < upper, returns v, and consumes exactly that token; everything else ends with the failure verdict.", "quantifier": "for all input byte sequences and all bounds", "why_tests_cant": "infinitely many inputs", "anchors": ["src/validate.h: InputStream::integer", "src/validate.h: INTEGER_REGEX", "src/validate.h: details::parse"]}
{"id": "C32", "title": "A strict validator pins down the file byte by byte", "statement": "If a validator that reads a sequence of tokens, spaces and newlines in space sensitive mode and finally calls eof() accepts a file, then the file is byte for byte the concatenation of the tokens it returned with exactly the separators it requested; conversely every such file is accepted.", "quantifier": "for all validator read sequences and all input files", "why_tests_cant": "all files times all validators", "anchors": ["src/validate.h: InputStream::string", "src/validate.h: InputStream::space", "src/validate.h: InputStream::newline", "src/validate.h: InputStream::eof", "src/validate.h: InputStream::noteof"]}
{"id": "C33", "title": "Whitespace insensitivity", "statement": "In space insensitive mode (output validators) the outcome and the values read depend only on the sequence of whitespace separated tokens, never on the amount or kind of whitespace.", "quantifier": "for all read sequences and all pairs of inputs with the same token sequence", "why_tests_cant": "all inputs", "anchors": ["src/validate.h: InputStream::string", "src/validate.h: InputStream::space", "src/validate.h: InputStream::eof"]}
{"id": "C34", "title": "What a generator prints, a strict reader reads back", "statement": "Printing a list of integers with the library's output stream (default separators) and reading it with InputStream::integers in space sensitive mode returns the same list.", "quantifier": "for all lists of 64-bit integers and separators used by the defaults", "why_tests_cant": "infinitely many lists", "anchors": ["src/validate.h: OutputStream", "src/validate.h: details::join", "src/validate.h: InputStream::integers"]}
{"id": "C35", "title": "expect functions accept exactly the expected value", "statement": "expectString / expectInt / expectReal succeed iff the next token is the expected one (up to case or tolerance when configured) and fail with the stream's verdict otherwise.", "quantifier": "for all inputs and expected values", "why_tests_cant": "infinitely many inputs", "anchors": ["src/validate.h: InputStream::expectString", "src/validate.h: InputStream::expectInt", "src/validate.h: InputStream::expectReal"]}
{"id": "C36", "title": "realStrict enforces the number of decimals and plain notation", "statement": "InputStream::realStrict(lower, upper, minDecimals, maxDecimals) accepts only tokens in plain decimal notation without superfluous leading zeros whose number of decimals lies in [minDecimals, maxDecimals).", "quantifier": "for all input tokens and bounds", "why_tests_cant": "infinitely many tokens", "anchors": ["src/validate.h: InputStream::realStrict", "src/validate.h: STRICT_REAL_REGEX"]}
{"id": "C37", "title": "Trailing or missing data is never accepted", "statement": "After the last read, eof() accepts iff nothing (space sensitive) or only whitespace (insensitive) is left; any read beyond the end of the input fails with the configured verdict; no read call succeeds without consuming input.", "quantifier": "for all inputs and read sequences", "why_tests_cant": "infinitely many inputs", "anchors": ["src/validate.h: InputStream::eof", "src/validate.h: InputStream::noteof", "src/validate.h: InputStream::check"]}
{"id": "C38", "title": "Constraint bounds are respected and logged", "statement": "After any sequence of bounded reads, the constraint log contains per name exactly one line, in order of first use, with the tightest observed minimum and maximum, the union of the declared bounds and correct flags whether the bounds were attained.", "quantifier": "for all sequences of logged values and bounds", "why_tests_cant": "all histories", "anchors": ["src/validate.h: Bounds", "src/validate.h: Constraint", "src/validate.h: ConstraintsLogger"]}
{"id": "C39", "title": "Command line parsing", "statement": "CommandParser[\"--name\"] yields exactly the arguments following the (unique) occurrence of --name up to the next command; a repeated command is rejected; missing commands use the given default.", "quantifier": "for all argument vectors", "why_tests_cant": "infinitely many argument vectors", "anchors": ["src/validate.h: CommandParser", "src/validate.h: Command", "src/validate.h: Parameter", "src/validate.h: details::parse"]}
{"id": "C40", "title": "Multipass state hand-over", "statement": "In pass k (k = 0, 1, ...) the validator sees pass number k and the previous state it reads is byte for byte what pass k-1 wrote, never something older or written in the same pass.", "quantifier": "for all numbers of passes and all written contents", "why_tests_cant": "all histories of passes", "anchors": ["src/validate.h: Multipass"]}
{"id": "C41", "title": "Separated output", "statement": "Writing a container with separator sep prints the elements in order with exactly one separator between neighbours and none at the ends; nothing else is printed.", "quantifier": "for all element lists and separators", "why_tests_cant": "infinitely many lists", "anchors": ["src/validate.h: OutputStream", "src/validate.h: details::join"]}
{"id": "C42", "title": "graph_val Graph: connectivity and component counting", "statement": "After any sequence of addEdge calls Graph::isConnected / component queries report exactly whether all vertices are joined by paths of added edges; sameSet queries of the union-find are reachability.", "quantifier": "for all vertex counts, offsets and edge insertion histories", "why_tests_cant": "all graphs and all insertion orders (path compression and union by rank depend on order)", "anchors": ["src/graph_val.h: UnionFind", "src/graph_val.h: BaseGraph", "src/graph_val.h: Graph::addEdge", "src/graph_val.h: Graph::isConnected"]}
{"id": "C43", "title": "graph_val Graph: forests and trees", "statement": "Graph::isForest is true iff the inserted edges contain no cycle (loops and repeated edges count as cycles); Graph::isTree iff the graph is additionally connected.", "quantifier": "for all edge insertion histories", "why_tests_cant": "all graphs", "anchors": ["src/graph_val.h: Graph::isForest", "src/graph_val.h: Graph::isTree", "src/graph_val.h: UnionFind"]}
{"id": "C44", "title": "graph_val Graph: bipartiteness", "statement": "Graph::isBipartite is true iff the vertices can be 2-coloured such that every inserted edge joins different colours.", "quantifier": "for all edge insertion histories", "why_tests_cant": "all graphs", "anchors": ["src/graph_val.h: Graph::isBipartite", "src/graph_val.h: UnionFind"]}
{"id": "C45", "title": "graph_val: loops, multi-edges, degrees", "statement": "hasSelfLoop / hasMultiEdge / degree queries and the neighbour lists agree with the multiset of inserted edges.", "quantifier": "for all edge insertion histories", "why_tests_cant": "all graphs", "anchors": ["src/graph_val.h: BaseGraph", "src/graph_val.h: Graph", "src/graph_val.h: DiGraph"]}
{"id": "C46", "title": "graph_val DiGraph: isDAG", "statement": "DiGraph::isDAG returns a topological order if the graph is acyclic and nothing otherwise.", "quantifier": "for all edge insertion histories", "why_tests_cant": "all digraphs; the result depends on the global structure", "anchors": ["src/graph_val.h: DiGraph::isDAG"]}
{"id": "C47", "title": "graph_val DiGraph: isTree", "statement": "DiGraph::isTree returns the root if the graph is a directed tree (every vertex reachable from the root by exactly one path) and nothing otherwise.", "quantifier": "for all edge insertion histories", "why_tests_cant": "needs a cycle next to an isolated root to fail", "anchors": ["src/graph_val.h: DiGraph::isTree", "src/graph_val.h: DiGraph::addEdge"]}
{"id": "C48", "title": "graph_gen: graph container refines a set of edges", "statement": "After any sequence of addEdge / eraseEdge / setMinId calls, hasEdge, findEdge, getEdgeById, edgeCount, degree and the adjacency views of a graph_gen graph agree with the abstract map from vertex pairs to edge data; invalid calls (unknown vertex, self loop, id of an edge that does not exist) throw without changing the graph; erasing an edge that does not exist reports false.", "quantifier": "for all operation sequences, directed and undirected", "why_tests_cant": "all histories; the xor-keyed adjacency sets could confuse edges only for particular ids", "anchors": ["src/graph_gen.h: GraphType", "src/graph_gen.h: GraphType::addEdge", "src/graph_gen.h: GraphType::eraseEdge", "src/graph_gen.h: GraphType::findEdge", "src/graph_gen.h: GraphType::setMinId", "src/graph_gen.h: EdgePointerCompair"]}
{"id": "C49", "title": "graph_gen: randomGraph(n, m) has exactly m edges", "statement": "randomGraph(n, m) returns a simple graph on n vertices with exactly m different edges and without self loops for every random outcome, and the index-to-pair map behind it is a bijection, so every such graph is equally likely.", "quantifier": "for all n, 0 <= m <= number of pairs, directed and undirected, all random outcomes", "why_tests_cant": "all n; the triangular index folding could collide for single n", "anchors": ["src/graph_gen.h: randomGraph(Integer, Integer)"]}
{"id": "C50", "title": "graph_gen: pruefer / randomTree produce trees", "statement": "pruefer(code) returns a tree in which vertex v has degree 1 + (number of occurrences of v in the code), different codes give different trees, and randomTree(n) is therefore a uniformly random labelled tree for every n.", "quantifier": "for all codes and all n", "why_tests_cant": "n^(n-2) codes for every n", "anchors": ["src/graph_gen.h: pruefer", "src/graph_gen.h: randomTree"]}
{"id": "C51", "title": "graph_gen: randomGraph(degrees) realises the degree sequence", "statement": "randomGraph(degree, averageFlips), if it returns, returns a simple graph in which vertex i has degree degree[i], no matter which flips are drawn; it throws only if no such graph exists.", "quantifier": "for all degree sequences, flip counts and random outcomes", "why_tests_cant": "all sequences and flip histories", "anchors": ["src/graph_gen.h: randomGraph(const std::vector<Integer>&, Integer)"]}
{"id": "C52", "title": "graph_gen: elementary families", "statement": "independent, clique, bipartite, star, path, cycle, grid, hypercube, completeTree, booleanLattice, lolly and broom have the documented vertex sets and exactly the documented edges.", "quantifier": "for all parameters", "why_tests_cant": "all parameters", "anchors": ["src/graph_gen.h: clique", "src/graph_gen.h: bipartite", "src/graph_gen.h: star", "src/graph_gen.h: path", "src/graph_gen.h: cycle", "src/graph_gen.h: grid", "src/graph_gen.h: hypercube", "src/graph_gen.h: completeTree", "src/graph_gen.h: booleanLattice", "src/graph_gen.h: lolly", "src/graph_gen.h: broom"]}
{"id": "C53", "title": "graph_gen: wheel", "statement": "wheel(n) consists of a cycle of n outer vertices all joined to vertex 0.", "quantifier": "for all n >= 3", "why_tests_cant": "all n", "anchors": ["src/graph_gen.h: wheel"]}
{"id": "C54", "title": "graph_gen: rado", "statement": "rado(n) joins i < j iff bit i of j is set (the documented Rado graph).", "quantifier": "for all n", "why_tests_cant": "differs only at powers of two", "anchors": ["src/graph_gen.h: rado"]}
{"id": "C55", "title": "graph_gen: graph operators", "statement": "complement, reverse, undirected, directed, combine, append, permutate, product, cartesian, strongProduct, lineGraph and power compute the usual graph operations and return well-formed graphs (every edge stored exactly once).", "quantifier": "for all graphs", "why_tests_cant": "all graphs", "anchors": ["src/graph_gen.h: GraphType::complement", "src/graph_gen.h: GraphType::reverse", "src/graph_gen.h: GraphType::combine", "src/graph_gen.h: GraphType::append", "src/graph_gen.h: GraphType::permutate", "src/graph_gen.h: GraphType::product", "src/graph_gen.h: GraphType::cartesian", "src/graph_gen.h: GraphType::lineGraph", "src/graph_gen.h: GraphType::power", "src/graph_gen.h: GraphType::range"]}
{"id": "C56", "title": "graph_gen: randomBipartite", "statement": "randomBipartite(n, m, k) returns exactly k different edges, each between the two sides, for every random outcome.", "quantifier": "for all n, m, 0 <= k <= number of pairs, directed and undirected, all random outcomes", "why_tests_cant": "all parameters", "anchors": ["src/graph_gen.h: randomBipartite(Integer, Integer, Integer)"]}
{"id": "C57", "title": "xoshiro256**: jump() equals 2^128 steps", "statement": "Xoshiro256ss::jump() moves the generator to exactly the state reached by 2^128 calls of operator(), so jumped generators do not overlap within 2^128 outputs.", "quantifier": "for all 2^256 states", "why_tests_cant": "2^128 steps cannot be executed", "anchors": ["src/rng.h: Xoshiro256ss::jump", "src/rng.h: Xoshiro256ss::operator()"]}
{"id": "C58", "title": "xoshiro256**: full period", "statement": "From every non-zero state the generator returns to its state after exactly 2^256-1 steps and never earlier; the state update is a bijection; no seed leads to the all-zero state.", "quantifier": "for all 2^256 states and all 2^64 seeds", "why_tests_cant": "period 2^256-1 cannot be executed", "anchors": ["src/rng.h: Xoshiro256ss"]}
{"id": "C59", "title": "AES-256 block cipher conforms to FIPS-197", "statement": "The block function used by the secure random engine equals the AES-256 cipher of FIPS-197 (substitution box and field multiplication tables included) for every key and block, and is a bijection on blocks for every key.", "quantifier": "for all 2^256 keys and 2^128 blocks", "why_tests_cant": "2^384 pairs; a single wrong table entry is visible only for few blocks", "anchors": ["src/secure_rng.h: AES256", "src/secure_rng.h: SBOX", "src/secure_rng.h: GF_MUL_TABLE", "src/secure_rng.h: keyExpansion"]}
{"id": "C60", "title": "AES_RNG never repeats a counter block", "statement": "The counter of AES_RNG is a 128-bit little-endian counter: after k calls it is start + k mod 2^128, so no cipher input block repeats within 2^128 calls, and seeds s != t start at different blocks.", "quantifier": "for all seeds and all call counts", "why_tests_cant": "carry propagation over many bytes happens after 2^64 or more calls", "anchors": ["src/secure_rng.h: AES_RNG"]}
{"id": "C61", "title": "PNG writer round trip", "statement": "A standard PNG decoder (signature, chunk lengths, CRC-32, zlib stored blocks, Adler-32, filter 0, RGBA8) applied to the file written for an image returns exactly the image, for every size and content within the size limit.", "quantifier": "for all image sizes and pixel contents", "why_tests_cant": "all images; checksum/table errors show only for particular bytes", "anchors": ["src/visualizer_png.h: PNGWriter", "src/visualizer_png.h: details::CRC32", "src/visualizer_png.h: PNG::write"]}
{"id": "C62", "title": "PNG drawLine", "statement": "drawLine(a, b) terminates for all end points, colours a and b and only pixels of their bounding box, exactly max(|dx|,|dy|)+1 of them, consecutive ones being neighbours.", "quantifier": "for all end points inside the image", "why_tests_cant": "all pairs of points; termination is a liveness property", "anchors": ["src/visualizer_png.h: PNG::drawLine"]}
{"id": "C63", "title": "PNG floodFill", "statement": "floodFill(p, colour) recolours exactly the 4-connected region of pixels that have p's colour and leaves all other pixels unchanged; it terminates.", "quantifier": "for all images, start points and colours", "why_tests_cant": "all images", "anchors": ["src/visualizer_png.h: PNG::floodFill"]}
{"id": "C64", "title": "PNG fillRectangle", "statement": "fillRectangle(a, b, border, fill) terminates, paints exactly the rectangle spanned by a and b, border colour on the rim and fill colour inside.", "quantifier": "for all corner points inside the image", "why_tests_cant": "hangs or mis-paints for almost all arguments, but only when called", "anchors": ["src/visualizer_png.h: PNG::fillRectangle"]}
{"id": "C65", "title": "Colour arithmetic stays in range", "statement": "Colour addition, scaling, blending and interpolation produce channels in 0..255 (alpha in 0..255), never divide by zero and leave opaque colours opaque.", "quantifier": "for all colours", "why_tests_cant": "2^64 colour pairs", "anchors": ["src/visualizer_png.h: Color", "src/visualizer_png.h: details::combine", "src/visualizer_svg.h: Color"]}
{"id": "C66", "title": "SVG bounding box", "statement": "After any sequence of drawn shapes the viewBox computed by the SVG writer contains every included point and is the smallest such box (together with the initial one).", "quantifier": "for all sequences of included points (exact arithmetic)", "why_tests_cant": "all drawing histories", "anchors": ["src/visualizer_svg.h: SVG::includeInBB", "src/visualizer_svg.h: SVG::write"]}
{"id": "C67", "title": "isSimple decides simplicity", "statement": "isSimple returns true exactly for the lists of points that form a simple polygon (at least three vertices, no zero-length edge, no two edges with a common point except the vertex between neighbours), however the search tree of its status is balanced, and never overflows or uses an invalid iterator for coordinates up to 2^30-1.", "quantifier": "for all point lists, all tree shapes", "why_tests_cant": "sweep line algorithms fail only on rare degenerate position combinations (vertical edges, touching vertices, shared end points)", "anchors": ["src/validate.h: isSimple"]}
{"id": "C68", "title": "xoshiro256**: equidistribution", "statement": "Over one period of 2^256-1 calls, from every non-zero state, every 64-bit word except 0 is returned exactly 2^192 times and 0 one time less; moreover every sequence of four words except four zeros is returned by four consecutive calls exactly once.", "quantifier": "for all non-zero states, all words and all quadruples of words", "why_tests_cant": "counting over 2^256 calls cannot be executed", "anchors": ["src/rng.h: Xoshiro256ss::operator()"]}
{"id": "C69", "title": "Settings: command line over program over defaults, frozen after init", "statement": "After init a tolerance is the value of its own flag (float_absolute_tolerance, float_relative_tolerance), else of float_tolerance, else what the program assigned before init, else 1e-6; space and case sensitivity are on iff the program or the command line switched them on; --seed decides the seed. init throws exactly for a second call, a repeated command, a seed that is no integer or a tolerance that is no number; after init every assignment to a setting throws and changes nothing.", "quantifier": "for all argument vectors, earlier assignments and later calls", "why_tests_cant": "unbounded argument vectors; the order and the precedence of flags", "anchors": ["src/validate.h: ValidateBase::details::init", "src/validate.h: SettingBase::operator=", "src/validate.h: details::initialized"]}
{"id": "C70", "title": "Validator streams use the settings", "statement": "After the init function of InputValidator, AnswerValidator, OutputValidator and Interactor the streams read from the documented sources, with the sensitivity, the verdict and the tolerances given by the settings (documented: real(lower, upper) uses the global tolerance).", "quantifier": "for all argument vectors and earlier assignments", "why_tests_cant": "a forgotten constructor argument shows only with particular flags and borderline numbers", "anchors": ["src/validate.h: InputValidator::init", "src/validate.h: AnswerValidator::init", "src/validate.h: OutputValidator::init", "src/validate.h: Interactor::init"]}
{"id": "C71", "title": "Random::convex returns convex polygons", "statement": "Random::convex(n, dim) returns n points with coordinates strictly between -dim and dim that form a convex polygon, listed counter-clockwise, which reaches the coordinates dim-1 and 1-dim in x and y; isConvex accepts it; nothing overflows and the comparator given to std::sort is a strict weak ordering.", "quantifier": "for all n and dim with 3 <= n <= 8*dim-8, dim < 2^30, all draws, all conforming std::sort and std::partition", "why_tests_cant": "all polygons; a degenerate result or an ordering violation appears only for particular draws", "anchors": ["src/validate.h: Random::convex", "src/validate.h: details::cyclicSort"]}
{"id": "C72", "title": "normal and exponential sample the named distributions", "statement": "normal(mean, stddev) is normally distributed with that mean and standard deviation, exponential(lambda) exponentially with rate lambda; the bounded versions have the same distribution under the condition that the result is in [lower, upper) and always return such a value; wrong arguments throw.", "quantifier": "for all arguments and all measurable sets of results (exact real arithmetic, independent uniform real())", "why_tests_cant": "a distribution is a statement about infinitely many runs; a statistical test cannot tell a wrong parameter or a small bias for all arguments", "anchors": ["src/validate.h: Random::normal", "src/validate.h: Random::exponential"]}
{"id": "C73", "title": "geometric and binomial sample the named distributions", "statement": "geometric(p) is the number of failures before the first success of probability p for 0 <= p < 1, binomial(n, p) the number of successes in n independent trials of probability p; the bounded versions have the same distribution under the condition that the result is in [lower, upper) and always return such a value; wrong arguments throw.", "quantifier": "for all arguments and results (exact real arithmetic, independent uniform real())", "why_tests_cant": "a distribution is a statement about infinitely many runs; undefined conversions occur only for particular p and draws", "anchors": ["src/validate.h: Random::geometric", "src/validate.h: Random::binomial"]}
{"id": "C74", "title": "graph_gen: randomGraph and randomBipartite with an edge probability", "statement": "randomGraph(n, p) and randomBipartite(n, m, p) contain every possible edge independently with probability p (the documented Erdos-Renyi graph), directed and undirected.", "quantifier": "for all n, m, p and every graph as outcome, given that Random::binomial has its law (C73)", "why_tests_cant": "a probability is a statement about infinitely many runs; a factor two in the number of trials is invisible in a single graph", "anchors": ["src/graph_gen.h: randomGraph(Integer, Real)", "src/graph_gen.h: randomBipartite(Integer, Integer, Real)"]}
{"id": "C75", "title": "graph_gen: randomGrowingGraph", "statement": "randomGrowingGraph(n, p) is a simple graph on [0, n) in which vertex i has floor(p * X_i) smaller neighbours, X_i independent and uniform in [0, i+1), and given these numbers all choices of the neighbours are equally likely and independent.", "quantifier": "for all n, p in [0, 1], and every graph as outcome", "why_tests_cant": "the law of the whole graph cannot be tested", "anchors": ["src/graph_gen.h: randomGrowingGraph"]}
{"id": "C76", "title": "graph_gen: networks for flow algorithms", "statement": "ffWorstcase(n) has 2n vertices and a maximum flow of 2^n from 0 to 2n-1 (documented), which the algorithm of Ford and Fulkerson with a depth first search in the order of the edges only finds one unit at a time; mcmfWorstcase(n) has 2n+2 vertices and a positive flow from 0 to 2n+1; the edges are those of the constructions, every capacity and cost fits, and other n are rejected.", "quantifier": "for all n", "why_tests_cant": "a maximum is a statement about all flows; overflow only for the largest n", "anchors": ["src/graph_gen.h: ffWorstcase", "src/graph_gen.h: mcmfWorstcase"]}
{"id": "C77", "title": "floatEqual, floatLess and floatGreater", "statement": "floatEqual(given, expected, absTol, relTol) is true exactly if the finite values differ by at most absTol or by at most relTol times |expected| (up to the errors of the roundings), or both are NaN, or both are infinities of the same sign; negative and NaN tolerances throw; every value equals itself; with tolerances zero it is equality; floatLess and floatGreater are both true exactly if floatEqual is, and one of them always is unless exactly one value is NaN.", "quantifier": "for all binary floating point formats with rounding to nearest even, all values and tolerances", "why_tests_cant": "borderline values of 2^80 * 2^80 pairs; overflow, underflow and division by zero", "anchors": ["src/validate.h: details::floatEqual", "src/validate.h: floatLess", "src/validate.h: floatGreater"]}
{"id": "C78", "title": "Graphs from the generator to the validator", "statement": "A graph is written as its numbers of vertices and edges and one line per edge; the documented validator program (example/inputValidator.graph.cpp) accepts a file if and only if it is the canonical text of a tree within the limits, answers WA to every other file, and never throws, crashes or answers FAIL; every tree of randomTree(n), renumbered from 1 and written, is accepted by it.", "quantifier": "for all files (byte strings), all graphs, all outcomes of the random generator", "why_tests_cant": "the set of files is infinite; generator and validator are only tested against each other on samples", "anchors": ["src/graph_gen.h: operator<<", "example/inputValidator.graph.cpp", "src/graph_val.h: Graph", "src/validate.h: InputStream::integer"]}
{"id": "C79", "title": "SVG files are well-formed and complete", "statement": "The file that an SVG image is written to is a well-formed XML document whose root is svg with the bounding box (enlarged as the program asked for) as viewBox, and which contains exactly one element per drawn shape, of the kind, with the geometry (vertical axis downwards) and with the stroke and fill of the shape, and one comment per comment, in the order of drawing; no file is written exactly if nothing was drawn.", "quantifier": "for all sequences of shapes, styles, comments and texts, for every notation of numbers without quotes and markup", "why_tests_cant": "all drawing histories; a missing quote or a repeated attribute shows only for one combination of optional parts", "anchors": ["src/visualizer_svg.h: SVG::write", "src/visualizer_svg.h: attribute", "src/visualizer_svg.h: Stroke", "src/visualizer_svg.h: Shape", "src/visualizer_svg.h: Comment"]}
{"id": "C80", "title": "Real numbers are read correctly rounded", "statement": "isReal and InputStream::real accept exactly the decimal notations (optional sign, digits with optional point, optional exponent) of numbers within the range of Real and return a Real nearest to the written number, never an infinity or NaN; real(lower, upper) accepts every notation of every number in [lower, upper] and otherwise only what is within the tolerances of a bound; realStrict returns values in [lower, upper) only.", "quantifier": "for all texts, all bounds and tolerances, in every binary floating point format", "why_tests_cant": "infinitely many texts; rounding goes wrong only near ties, bounds only next to them", "anchors": ["src/validate.h: isReal", "src/validate.h: details::parse", "src/validate.h: InputStream::real", "src/validate.h: InputStream::realStrict", "src/validate.h: REAL_REGEX"]}
{"id": "C81", "title": "Real numbers that are written can be read again", "statement": "OutputStream writes every finite Real as optional minus sign, natural number without leading zeros, point and six digits, nearest to the number; reading the text gives a number that floatEqual with the default tolerance finds equal, exactly the same one if it was the Real of a number with at most six decimals; a strict stream accepts the text, also with realStrict and bounds that the number respects; infinities and NaN are not accepted.", "quantifier": "for all finite numbers of every binary floating point format with the range of a single or larger", "why_tests_cant": "all values of Real; needs the interplay of two roundings", "anchors": ["src/validate.h: OutputStream::init", "src/validate.h: DEFAULT_PRECISION", "src/validate.h: details::parse", "src/validate.h: floatEqual", "src/validate.h: InputStream::realStrict"]}
{"id": "C82", "title": "Numbers in SVG files", "statement": "The numbers in SVG files are notations of the numbers of the image with a relative error of at most 5e-6 in shapes (exact with up to six significant digits) and an absolute error of at most 5e-7 in the view box, so that the file is a well-formed document with the drawn shapes; the shapes lie in the view box, different shapes have different texts, and an image of positive size has a view box of positive size.", "quantifier": "for all rational coordinates and all sequences of shapes", "why_tests_cant": "all coordinates; the notation switches to exponents and drops digits for large and small numbers only", "anchors": ["src/visualizer_svg.h: attribute", "src/visualizer_svg.h: SVG::write"]}
{"id": "C83", "title": "Failure messages point to the failing piece", "statement": "When a read function rejects a seekable input, the message names line and column of the word or character at which it failed, shows an excerpt of that line with at most 80 characters (the whole line if it is short) and marks the piece in it; writing the message never throws.", "quantifier": "for all inputs and all positions at which reading may stop", "why_tests_cant": "all inputs; off-by-one errors and out of range positions depend on line length, word length and the end of the file", "anchors": ["src/validate.h: InputStream::fail", "src/validate.h: TEXT_ELLIPSIS"]}
{"id": "C84", "title": "Bounded random reals", "statement": "real(upper) returns a number of the format in [0, upper) that is the rounded product of upper and the last value of real(); real(lower, upper) returns a number of the format in [lower, upper) that divides the interval in the ratio of the last value of real() up to a few roundings. Both end with probability one, and reject bounds that are not finite or not in order.", "quantifier": "for every binary floating point format, all bounds of the format and every sequence of engine words", "why_tests_cant": "the rejected results need extreme values of real(); rounding cases depend on all bits of the bounds", "anchors": ["src/validate.h: Random::real(Real upper)", "src/validate.h: Random::real(Real lower, Real upper)"]}
{"id": "C85", "title": "Random::real is uniform", "statement": "For every t in (2^-64, 1], real() is less than t with probability t, up to a relative error of 2^-52 from the conversion of the mantissa to double.", "quantifier": "for all t in (2^-64, 1], counted over all pairs of the first two engine words", "why_tests_cant": "there are 2^128 pairs of words; the probabilities of small values cannot be estimated by sampling", "anchors": ["src/validate.h: Random::real()"]}
{"id": "C86", "title": "The message of expectString shows the difference", "statement": "If the next token is not the expected string, the message contains an excerpt of both strings of at most 25 characters that keeps the character at their first difference, and its position counted from 1 if it is beyond the sixth character. Writing it never throws. The two excerpts are different.", "quantifier": "for all expected strings and tokens, with and without case", "why_tests_cant": "which of 16 combinations of cuts is taken depends on both lengths and the position of the difference", "anchors": ["src/validate.h: InputStream::expectString", "src/validate.h: details::stringEqual"]}
{"id": "C87", "title": "The example programs do what they say", "statement": "example/inputValidator.cpp accepts exactly the files in the described format and the constraints example those with n and n numbers; answerValidator.cpp accepts exactly one number per test case and line; outputValidator.cpp and interactor.cpp accept exactly the right answer and give WA for all others; multipassInteractor.cpp accepts iff both answers of the team are equal; generator.cpp writes n different numbers.", "quantifier": "for all input files, answers and outputs of the team, with and without white space and case", "why_tests_cant": "the programs are decided for all byte sequences; a test of the example cannot show that nothing else is accepted", "anchors": ["example/inputValidator.cpp", "example/inputValidator.constraints.cpp", "example/answerValidator.cpp", "example/outputValidator.cpp", "example/interactor.cpp", "example/multipassInteractor.cpp", "example/generator.cpp"]}
{"id": "C88", "title": "The distribution of Random::maximum and Random::minimum", "statement": "Random::maximum(lower, upper, n) has the distribution of the largest of n independent uniform integers of [lower, upper), for small n where it draws them and for large n where it draws a single real number; Random::minimum has that of the smallest. Results for large n are in the interval whatever the rounding.", "quantifier": "for all bounds, all n, all thresholds; for all formats of Real and all values of the power", "why_tests_cant": "the distribution is not visible in single runs, and the rounding only matters at the ends of huge intervals", "anchors": ["src/validate.h: Random::maximum", "src/validate.h: Random::minimum"]}
{"id": "C89", "title": "What the generators make, the validators accept", "statement": "Every result of Random::perm, shuffle, distinct and of the sorted sequence generators is accepted by the matching check (isPerm, isPermOf, areDistinct, areIncreasing, ...). A validator graph that is told the edges of a generated graph finds neither loops nor multiple edges, has the same vertices, edges and degrees, and its isConnected, isBipartite and isTree are true exactly when the generated graph has that property; so paths, stars, brooms, complete trees and random trees are trees, cycles, cliques, grids, hypercubes and lollipops are connected, grids, hypercubes, complete and random bipartite graphs are bipartite, and random directed trees are trees with root 0.", "quantifier": "for all arguments (within 64 bits), all generated graphs and all random choices", "why_tests_cant": "generator and validator are separate pieces of code with separate representations; agreement for all sizes and all random choices cannot be tested", "anchors": ["src/validate.h: Random::perm", "src/validate.h: isPerm", "src/graph_gen.h", "src/graph_val.h"]}
{"id": "C90", "title": "isConvex and isSimple together decide convexity", "statement": "A polygon is convex and listed counter-clockwise iff isConvex and isSimple both accept it; it is strictly convex iff isStrictlyConvex and isSimple both accept it. In particular convex polygons are simple, and a simple polygon that isConvex accepts has no right turn between any three of its vertices in their order.", "quantifier": "for all polygons with coordinates up to 2^30-1 and all shapes of the search tree of isSimple", "why_tests_cant": "a statement of plane geometry about polygons with any number of vertices; isConvex looks at neighbouring vertices only and on its own accepts polygons that wind several times", "anchors": ["src/validate.h: isConvex", "src/validate.h: isStrictlyConvex", "src/validate.h: isSimple"]}
{"id": "C91", "title": "The graph generator example writes a random connected DAG", "statement": "Whatever the random generator does, example/generator.graph.cpp writes the text of a directed graph with the vertices 1..19 whose 33 edges are those of two cubes, a triangle and the six connecting edges, in any order, with the vertices renamed and all edges directed along one numbering of the vertices. So the written edges are different, without loops, acyclic, and connect all vertices. Renaming at random, directing edges from the smaller to the larger vertex and renaming again makes such a graph from every undirected graph.", "quantifier": "for all outcomes of the random generator; for the recipe also for all undirected graphs", "why_tests_cant": "there are 19!^2 renamings and 33! orders of the edges; a test sees a few of them", "anchors": ["example/generator.graph.cpp", "src/graph_gen.h: append", "src/graph_gen.h: directed", "src/graph_gen.h: permutate", "src/graph_gen.h: setMinId", "src/graph_gen.h: operator<<"]}
{"id": "C92", "title": "Random rearrangements of graphs are uniform", "statement": "permutate() gives every graph that arises by renaming the vertices the same probability (the number of renamings that leave the graph unchanged, divided by n!); permutateEdges() makes every order of the k edges, with each undirected edge written either way, equally likely (1/k! or 1/(k! 2^k)); subgraph(k) keeps every set of k edges with the same probability.", "quantifier": "for all graphs with any number of vertices and edges; draws uniform and independent (C02)", "why_tests_cant": "a law of distribution; tests sample it for a few small graphs and cannot tell small deviations", "anchors": ["src/graph_gen.h: permutate", "src/graph_gen.h: permutateEdges", "src/graph_gen.h: subgraph"]}
{"id": "C93", "title": "The example visualizers draw what they describe", "statement": "visualizer.png.cpp makes an image one pixel larger on each side in which the lines of the test are black, everything connected to the border is transparent and the enclosed rest is white, blends magenta over it and writes the file; visualizer.svg.cpp writes a well-formed file that holds the polygon of the test and the line of the answer, with every point of both at least 3 away from the border.", "quantifier": "for all sizes, all numbers of lines inside the image, all polygons and polylines", "why_tests_cant": "pictures are not compared by tests; the claim is about all sets of lines and all points of the drawn shapes", "anchors": ["example/visualizer.png.cpp", "example/visualizer.svg.cpp", "src/visualizer_png.h:floodFill", "src/visualizer_png.h:drawLine", "src/visualizer_svg.h:SVG"]}
{"id": "C94", "title": "Reading with constraints", "statement": "Passing constraint[name] to string, integer, real, realStrict or their list versions changes neither the values, nor the input consumed, nor the verdict. The constraints file describes exactly the values that were read, each once, in order, with the bounds of its call and under its name, also if the validator ends with a verdict in the middle of a list. In every line the bounds enclose the values.", "quantifier": "for all validators (adaptive programs of read calls), all inputs and all sensitivities", "why_tests_cant": "tests check a few validators; the claim is about every program and every point at which it can fail", "anchors": ["src/validate.h:InputStream", "src/validate.h:Constraint", "src/validate.h:ConstraintsLogger"]}
{"id": "C95", "title": "Helpers for containers", "statement": "append(c1, c2) adds the elements of c2 behind those of c1 and changes no other container, also if c2 is c1 itself or refers to elements of c1. flatten gives the elements of nested containers from left to right for every depth. asFunction of an rvalue keeps the elements, asFunction of an lvalue follows the container. Sorting with shorter or longer orders by length, MinPQ and MaxPQ give their elements in increasing and decreasing order.", "quantifier": "for all contents, capacities, growth policies, aliasing of the arguments, depths of nesting, strict weak orderings and correct standard libraries", "why_tests_cant": "whether an append to itself reads freed memory depends on the capacity; tests see it only with a sanitizer and for the sizes they try", "anchors": ["src/validate.h:append", "src/validate.h:flatten", "src/validate.h:asFunction", "src/validate.h:shorter", "src/validate.h:MinPQ"]}
{"id": "C96", "title": "AES_RNG: equidistribution", "statement": "Among any 2^128 consecutive calls of AES_RNG every 64-bit word is returned exactly 2^64 times. Each call returns the exclusive or of the two halves of the AES-256 cipher text of its counter, least significant byte first.", "quantifier": "for all keys, all counters and all words", "why_tests_cant": "counting over 2^128 calls cannot be executed; a folding that loses bits looks random byte by byte", "anchors": ["src/secure_rng.h:AES_RNG::operator()"]}
{"id": "C97", "title": "Random results do not depend on the compiler", "statement": "For the same words of the engine every function of Random returns the same result and uses the same number of words on all compilers: with and without __int128, for every implementation of std::sort and std::partition that keeps the promises of the standard, and for every floating point format of long double.", "quantifier": "for all random programs, all sequences of words, all sorting and partition functions that fulfil their contracts, all formats", "why_tests_cant": "a test runs with one compiler, one standard library and one format of long double", "anchors": ["src/validate.h:details::mul", "src/validate.h:mulMod", "src/validate.h:Random::increasing", "src/validate.h:Random::convex", "src/validate.h:Random::real", "README.md:3"]}
{"id": "C98", "title": "The laws of random programs hold for their executions", "statement": "If the engine returns independent, uniformly distributed 64-bit words, then every program over Random::integer and Random::bit ends with probability one, its outcome is determined by the words, and the probability of a set of results is the one obtained by treating every call as an exactly uniform and independent choice; Random::real is below t with probability t up to a relative error of 2^-52.", "quantifier": "for all random programs with non-empty 64-bit ranges, all sets of results, with and without __int128", "why_tests_cant": "infinite sequences of words and rejection loops without a bound: only the measure of sets of infinite sequences tells what has probability one", "anchors": ["src/validate.h:Random::integer", "src/validate.h:Random::bit", "src/validate.h:Random::real"]}
{"id": "C99", "title": "mcmfWorstcase is a worst case for successive shortest paths", "statement": "Successive shortest paths, however they choose among the cheapest paths and however much they push, need at least 2^n-1 and at most 5*2^(n-2)-2 rounds for a largest flow of mcmfWorstcase(n); after k < 2^n rounds the flow is at most k + k/4. The smallest cost of a largest flow is (5*2^(n-2)-2)*(2^(n-1)-1), which fits into 64 bits exactly for n <= 31.", "quantifier": "for all 2 <= n <= 60 and all runs of the algorithm", "why_tests_cant": "the number of runs and of rounds is exponential; a smallest cost is a statement about all flows", "anchors": ["src/graph_gen.h: mcmfWorstcase"]}
{"id": "C100", "title": "Random programs need few words", "statement": "If the engine returns independent, uniformly distributed 64-bit words, then a random program that makes at most D calls of Random::integer and Random::bit takes at most 2*D words on average, whatever the ranges are; Random::integer needs more than n words with probability ((2^64 mod (upper-lower)) / 2^64)^n < 2^-n. So shuffle, distinct, perm, multiple, partition, string, bracketSequence, prime, randomGraph, randomTree and permutate take a number of words that is linear in the size of their output on average, also where distinct draws nearly all values of a huge range.", "quantifier": "for all random programs with non-empty 64-bit ranges and all bounds D on their calls; all arguments of the functions named", "why_tests_cant": "the rejection loop has no bound, so no number of runs bounds its average, and the worst ranges for it are near 2^63", "anchors": ["src/validate.h:Random::integer", "src/validate.h:Random::shuffle", "src/validate.h:Random::distinct", "src/validate.h:Random::prime"]}
{"id": "C101", "title": "convexHull of the archived generator computes convex hulls", "statement": "Of points that are not on one line convexHull returns the convex polygon whose vertices are exactly the points on the boundary of the hull (also those inside of edges), counter-clockwise, each once, starting at the smallest one, followed by this first vertex once more; in general its path is closed and has all points on its left; of points on one line it returns the way there and back, of a single point only this point.", "quantifier": "for all lists of integer points with absolute coordinates below 2^30, with repetitions", "why_tests_cant": "a hull algorithm with collinear points has far more configurations than any test suite; a single wrong comparison only shows on degenerate inputs", "anchors": ["archive/convex.cpp:convexHull"]}
{"id": "C102", "title": "Random::convexDisk returns n points", "statement": "convexDisk(n, dim) returns n different points in the disk of radius dim that form a convex polygon.", "quantifier": "for all n and dim, all candidates of the sampling and all executions", "why_tests_cant": "sampling by floating point functions, and loops without a bound", "anchors": ["archive/convex.cpp:Random::convexDisk"]}
{"id": "C103", "title": "The archived generator against Java's sort produces permutations", "statement": "HackedSort(n, min) always ends and its data is a permutation of min, ..., min+n-1.", "quantifier": "for all n and min and all results of the shuffles", "why_tests_cant": "the recursion has a different shape for every n, and no test runs the file", "anchors": ["archive/javaSortHack.cpp:HackedSort"]}
{"id": "C104", "title": "The archived polygon generator returns a simple polygon of the sampled points", "statement": "Random::polygon(n, dim) ends and returns a simple polygon whose vertices are the n sampled points, all in (-dim, dim)^2.", "quantifier": "for all n and dim, all points and directions that can be sampled, all choices of cut points, all implementations of std::partition and std::sort", "why_tests_cant": "the recursion splits the points along random lines; the bad cases are right angles and points on a line, which random tests rarely hit", "anchors": ["archive/polygon.cpp:details::findLine, Random::point, Random::polygon"]}
{"id": "C105", "title": "Files of output validators: messages, state and next pass are exactly what the program wrote", "statement": "An output validator or interactor that finds its files leaves exactly what it wrote to juryOut and teamOut at the end of judgemessage.txt and teammessage.txt, after what was there before; pass k of a multipass program gets exactly what pass k-1 wrote to nextstate, NEXT() leaves exactly what was written to nextpass in nextpass.in and ends with the exit code for accepted; no other file changes. init throws if a file is missing, before anything else happens to files other than the messages.", "quantifier": "for all programs, file systems, arguments, sequences of passes and interleavings of writes", "why_tests_cant": "depends on open modes, on the order of openings and on whole sequences of program runs that share a directory", "anchors": ["src/validate.h:MESSAGE_MODE, OutputStream, InputStream, OutputValidator::init, Interactor::init, Multipass::init, Multipass::NEXT"]}
{"id": "C106", "title": "Objects made by join: rvalues are stored, lvalues are referenced", "statement": "An object made by join prints the elements, separated by the separator (the null character for none), of a char array all but the last one. If the container is given as rvalue the object stores all values and prints them whenever it is printed; else it stores a reference and prints the elements that the container has at that time.", "quantifier": "for all containers, tuples, arrays, lists of arguments, separators and changes of the memory between making and printing the object", "why_tests_cant": "concerns objects that are printed later, after arbitrary changes of the memory; undefined behaviour of invalid iterators is invisible in most runs", "anchors": ["src/validate.h:join, details::TempWriter, details::JoinListCapture, OutputStream::join; doc/validate.md"]}
{"id": "C107", "title": "Images are written to their files", "statement": "When a PNG or SVG object with a file name is destroyed, the file contains the picture. After Visualizer::init the file name.png or name.svg contains exactly what was drawn to image when the program ends, whatever happens to other images, and no other file changes.", "quantifier": "for all programs that make, copy, assign, move, draw, write and destroy images, all file names, all contents of files and all unspecified values of moved objects", "why_tests_cant": "concerns all orders of constructors, moves and destructors and the unspecified contents of moved objects; a test sees one of them", "anchors": ["src/visualizer_png.h:PNG::write, ~PNG, Visualizer::init; src/visualizer_svg.h:SVG::write, ~SVG, Visualizer::init; doc/visualizer_png.md; doc/visualizer_svg.md; example/visualizer.svg.cpp"]}
{"id": "C108", "title": "caseSensitive.regex accepts the words of the pattern", "statement": "On a stream whose case sensitivity is the setting, string(caseSensitive.regex(pattern)) reads a word exactly if it is a word of the pattern, up to the case of letters if the setting is off; all other words give the verdict of the stream.", "quantifier": "for all patterns of characters, ranges, concatenations, alternatives and repetitions, all settings, all inputs", "why_tests_cant": "quantifies over all patterns and all words; words of any length and every combination of cases are accepted or not", "anchors": ["src/validate.h:SettingCaseSensitive::regex, InputStream::string(pattern), InputStream::check; doc/validate.advanced.md; example/outputValidator2.cpp"]}
{"id": "C109", "title": "The archived generator programs write files that strict validators read", "statement": "For all command lines, archive/polygon.cpp, convex.cpp and javaSortHack.cpp take the numbers after --n and --dim or --min (else the defaults) and write the number n and then n points, one per line, or n numbers in one line, so that a validator that reads exactly this with strict streams accepts the file and reads the generated values. Other command lines give an exception and no output.", "quantifier": "for all command lines, all random words, all points and values", "why_tests_cant": "quantifies over all command lines and random generators; the validator accepts one text only, so a superfluous blank or a wrong number of points in any of the files would be fatal", "anchors": ["archive/convex.cpp:main; archive/polygon.cpp:main; archive/javaSortHack.cpp:main; src/validate.h:CommandParser, join, InputStream::integer"]}
{"id": "C110", "title": "Alphabets and the laws of string, rotate and shuffle of a pair", "statement": "Every alphabet constant consists of the characters that its name promises, each once, and the functions isLower, isUpper, ... hold exactly for the characters of the alphabet of this name. Random::string(n, alphabet) makes all strings of length n over a duplicate free alphabet with the same probability (by default over the small letters), in general every character has the share of its occurrences; all rotations of Random::rotate are equally likely and shuffle exchanges the parts of a pair with probability 1/2.", "quantifier": "for all characters, lengths, alphabets, ranges and strings", "why_tests_cant": "probabilities of all strings of all lengths over all alphabets", "anchors": ["src/validate.h:LETTER, UPPER, LOWER, VOWEL, CONSONANT, ALPHA_NUMERIC, DIGITS, BRACKETS, Random::string, Random::rotate, Random::shuffle; doc/validate.md"]}
{"id": "C111", "title": "Every end of a validator has a culprit", "statement": "A validator that reads several streams (test case, answer of the jury, answer of the team), deciding by the values read what to read next, ends abnormally only by its own doing, because a stream does not contain what a call asks for (then with the verdict of exactly this stream), or because it misuses a function (separator other than space and line break, negative number of elements, expected string that is not a token; then with an exception, whatever the texts are). An output validator that misuses nothing and whose jury files are right thus ends with AC, WA or normally for every answer of a team, and with WA only if the program said so or the team's answer is not what was asked for. Reading one stream never moves another.", "quantifier": "for all programs over any streams, all settings, all texts", "why_tests_cant": "quantifies over all programs and all texts of a team that tries to provoke a judge error; tests try a few malformed answers", "anchors": ["src/validate.h:InputStream, OutputValidator::init, Verdicts, judgeAssert"]}
{"id": "C112", "title": "Bounded random reals are uniform up to rounding", "statement": "If the engine returns independent, uniformly distributed words, the probability that real(lower, upper) is less than t is (t-lower)/(upper-lower) up to 2*(e+2^-52), where e is the error of rounding of one iteration, 8*2^-p*max(|lower|,|upper|)+2^(emin+1), relative to upper-lower; for real(upper) it is t/upper up to 2*(2^-p+2^(emin-1)/upper+2^-52).", "quantifier": "for all binary floating point formats, all bounds lower < upper of the format and all t between them, over the product measure on infinite sequences of words", "why_tests_cant": "a probability over infinitely many words; the rejected values, which distort the law, are too rare to be seen by sampling", "anchors": ["src/validate.h:Random::real"]}
{"id": "C113", "title": "Successive draws are independent", "statement": "If the engine returns independent, uniformly distributed words, the results of successive calls of random functions (integers, bits, reals, everything built from integers and bits) are independent: the probability that all of them are in given sets is the product of the probabilities; if a call depends on earlier results, its law is the average over these.", "quantifier": "for all sequences of calls, all programs that draw integers and bits, all bounds, all sets of results, over the product measure on infinite sequences of words", "why_tests_cant": "a joint probability over infinitely many words; the number of words that a call takes is random, and rejected words could leak into the next call", "anchors": ["src/validate.h:Random::integer, Random::bit, Random::real"]}
{"id": "C114", "title": "exponential and geometric in floating point", "statement": "If the engine returns independent, uniformly distributed words and std::log and std::log1p have a relative error of at most e, then exponential(lambda) is below t with probability 1-exp(-lambda*t) up to e+2^-52, and geometric(p) is below k with probability 1-(1-p)^k up to 2*(e+2^-p)+2^-52 (p: precision of the format). exponential is never negative or NaN, the bounded variants stay in [lower, upper) after rounding, and geometric(p) does not overflow for p >= 2^-53 if real() is at least 2^-1074. Parameters outside the domain throw before a number is drawn.", "quantifier": "for all binary floating point formats, all functions std::log and std::log1p within the error, all lambda > 0, p, bounds, all t and k of the format, over the product measure on infinite sequences of words", "why_tests_cant": "a probability over infinitely many words; the effects of rounding at the ends of the range are too rare to be seen by sampling", "anchors": ["src/validate.h:Random::exponential, Random::geometric; doc/validate.md"]}
{"id": "C115", "title": "Loops that redraw sample the conditional distribution", "statement": "A loop that calls a random function until the value is accepted ends with probability 1 if values are accepted with positive probability at all, and returns values with the law of the random function conditioned on acceptance. So real(upper), real(lower, upper), exponential(lower, upper, lambda) and geometric(lower, upper, p) return in floating point exactly the conditional law of one iteration. The bounded exponential and geometric numbers have the conditioned exponential and geometric law, up to the error of one iteration divided by the probability that a value is accepted.", "quantifier": "for all random functions that take their words one after the other, all conditions, all bounds and parameters of the four functions, over the product measure on infinite sequences of words", "why_tests_cant": "a probability over infinitely many words and an unbounded number of iterations", "anchors": ["src/validate.h:Random::real, Random::exponential, Random::geometric"]}
{"id": "C116", "title": "normal in floating point", "statement": "If the engine returns independent, uniformly distributed words and the functions std::log, std::sqrt and std::cos have errors of at most e, then normal(mean, stddev) is below t with the probability of the normal distribution with mean `mean` and variance `stddev` (see C72 for the name of the parameter), up to 378*e + (e*|mean|+2^(emin+1))/sqrt(stddev) + 2^-49. normal(lower, upper, mean, stddev) returns values in [lower, upper) after rounding, with the law of one iteration under the condition that one of its two values is accepted, and ends with probability 1 if this has positive probability. If the error of std::sin is at most e too, this is the normal distribution conditioned on [lower, upper), up to 2*(15*d+2^-44) divided by the probability of [lower, upper), with d = 378*e + (e*|mean|+2^(emin+1))/sqrt(stddev). A negative or NaN stddev and bounds that are not in order throw before a number is drawn.", "quantifier": "for all binary floating point formats that are fine enough, all functions of the standard library within the error, all means, all positive stddev that the format can hold, all t, over the product measure on infinite sequences of words", "why_tests_cant": "a two dimensional transformation of random numbers over infinitely many words; errors near the axis and at the ends of the range are too rare to be seen by sampling", "anchors": ["src/validate.h:Random::normal; doc/validate.md"]}
{"id": "C117", "title": "binomial in floating point, small expected value", "statement": "If the engine returns independent, uniformly distributed words and std::log and std::log1p have a relative error of at most e, then binomial(n, p) with min(p, 1-p)*n < 10 is at least k with the probability of at least k successes in n independent trials of probability p, up to k*(2*(e+2^-p)+2^-52) (n-k+1 in place of k for p > 1/2) plus the probability that the call has no defined result, which is at most (n+1) times the probability that real() is below 2^-1074 for min(p, 1-p) >= 2^-53. For every p the result is in [0, n] and the loop takes at most n+1 iterations; binomial(n, 0) is 0 and binomial(n, 1) is n. binomial(lower, upper, n, p) returns only numbers in [lower, upper) and has exactly the law of one call under the condition that the loop ends with it, and so the binomial law conditioned on [lower, upper), up to 4*upper*(2*(e+2^-p)+2^-52) plus five times the probability that one call has no defined result, divided by the probability of [lower, upper). Parameters outside the domain throw before a number is drawn.", "quantifier": "for all binary floating point formats, all functions std::log and std::log1p within the error, all n that the format counts to, all p of the format, all k, over the product measure on infinite sequences of words", "why_tests_cant": "a probability over infinitely many words and up to n+1 iterations; undefined behaviour for tiny p needs a p that nobody tests", "anchors": ["src/validate.h:Random::binomial; doc/validate.md"]}
{"id": "C118", "title": "binomial in floating point, rejection method", "statement": "binomial(n, p) returns a number in [0, n] for all n and p, in floating point, whatever the functions of the standard library return in the rejection method. The rejection method (min(p, 1-p)*n >= 10) returns numbers with the law of one iteration under the condition that the loop ends with it, exactly. Every call has a defined result.", "quantifier": "for all binary floating point formats, all functions std::sqrt, std::log and std::lgamma, all n and p, over the product measure on infinite sequences of words", "why_tests_cant": "an unbounded number of iterations; the case without a defined result needs a value of real() that appears once in 10^16 calls", "anchors": ["src/validate.h:Random::binomial; doc/validate.md"]}
