import json
P=[]
def add(title,statement,quant,why,*anchors):
    P.append(dict(id="C%02d"%(len(P)+1),title=title,statement=statement,quantifier=quant,why_tests_cant=why,anchors=list(anchors)))
V="src/validate.h: "; GV="src/graph_val.h: "; GG="src/graph_gen.h: "; RN="src/rng.h: "; SR="src/secure_rng.h: "; PN="src/visualizer_png.h: "; SV="src/visualizer_svg.h: "
add("Random::integer stays in range","Random::integer(lower, upper) returns a value v with lower <= v < upper for every pair lower < upper of 64-bit integers (including ranges wider than 2^63), performs no signed overflow, and throws invalid_argument exactly when lower >= upper.",
 "for all 64-bit lower, upper and every sequence of 64-bit words the random engine may produce",
 "2^128 argument pairs times all engine outputs; off-by-one errors at the rejection threshold show up with probability about 2^-64",
 V+"Random::integer",V+"details::mulMod")
add("Random::integer is exactly uniform","Every value of [lower, upper) is hit by exactly the same number of non-rejected 64-bit engine words, namely floor(2^64/(upper-lower)); in particular a rejected draw occurs for fewer than half of the engine words.",
 "for all ranges of size 1..2^64-1 and all 2^64 engine words","statistical tests cannot see a bias below 2^-30; an exact count over 2^64 words cannot be enumerated",
 V+"Random::integer")
add("Random::shuffle yields permutations, all equally likely","Random::shuffle leaves a rearrangement of the given range (same multiset, same length), and the map from the sequence of bounded draws to the resulting arrangement is a bijection onto all n! arrangements, so each arrangement is equally likely when the draws are uniform.",
 "for all ranges of every length and every sequence of draws","n! arrangements for every n; the classic off-by-one Fisher-Yates bias is invisible to membership tests",
 V+"Random::shuffle")
add("Random::distinct returns distinct values","Random::distinct(count, lower, upper) returns exactly count pairwise different values, all in [lower, upper); it throws exactly when count < 0 or fewer than count values exist; each ordered selection arises from exactly one sequence of bounded draws.",
 "for all counts, all bounds and all random outcomes","sparse Fisher-Yates bookkeeping fails only on particular coincidences of draws",
 V+"Random::distinct")
add("Random::perm is a uniform permutation","Random::perm(count, offset) returns each of offset..offset+count-1 exactly once, and every permutation is produced by exactly one sequence of draws.",
 "for all counts, offsets and all random outcomes","n! results, every n",V+"Random::perm(Integer, Integer)")
add("Random::perm(cycles) has the requested cycle type","Random::perm(cycles, offset) returns a permutation of [offset, offset+sum) whose cycle decomposition has exactly the given cycle lengths.",
 "for all lists of positive cycle lengths and all random outcomes","cycle structure is a global property of the output and depends on all draws",V+"Random::perm(const std::vector<Integer>&, Integer)")
add("Random::perm(count, fix) keeps fixpoints","Random::perm(count, fix, offset) returns a permutation of [offset, offset+count) in which every listed element is a fixpoint.",
 "for all counts, offsets, lists fix of elements of the range (including repeated ones) and all random outcomes","fails only for special fix lists (repeated entries)",V+"Random::perm(Integer, const std::vector<Integer>&, Integer)")
add("Random::partition sums up","Random::partition(n, k, min) returns k summands, each at least min, that add up to exactly n, for every random outcome, whenever its documented preconditions hold.",
 "for all n, k, min (also negative min) and all random outcomes","a sum/minimum violation can depend on the drawn cut points",V+"Random::partition")
add("Random::bracketSequence is balanced and uniform","Random::bracketSequence(n, o, c) returns a balanced string of n opening and n closing brackets; the probability of each balanced sequence is the same when the bounded draws are uniform.",
 "for all n and all random outcomes","Catalan(n) many outputs for every n; a wrong acceptance probability is not visible in single outputs",V+"Random::bracketSequence")
add("Sorted random sequences","Random::increasing/decreasing return strictly sorted sequences of the requested length inside [lower, upper); Random::nonDecreasing/nonIncreasing return weakly sorted ones; each possible output of each of these functions is equally likely, as documented.",
 "for all counts, bounds and random outcomes","depends on all draws",V+"Random::increasing",V+"Random::nonDecreasing",V+"Random::decreasing",V+"Random::nonIncreasing",V+"Random::multiple")
add("Random::discrete follows the weights","Random::discrete(weights) returns a valid index, never one of weight 0, and index i is selected by exactly weight[i] of the sum(weights) equally likely draws.",
 "for all weight lists with non-negative weights and positive total, all draws","zero-weight entries and prefix boundaries are measure-zero events for sampling tests",V+"Random::discrete")
add("Random::real lies in [0,1)","Random::real() returns a value x with 0 <= x < 1 for every output of the random engine, as documented.",
 "for every sequence of 64-bit engine words","the rounding case leading to exactly 1.0 has probability about 2^-54",V+"Random::real()")
add("Random::prime is a prime inside the range","Random::prime(lower, upper), if it returns, returns a number p with lower <= p < upper that passes isPrime; it never returns anything else.",
 "for all lower, upper and all random outcomes","violations only at special bounds such as upper = 2",V+"Random::prime")
add("Random::nonCollinearPoints are in general position","Random::nonCollinearPoints(n, dim) returns n distinct points with coordinates in (-dim, dim), no three on a line, for all documented arguments 0 <= n < dim.",
 "for all n, dim and all random outcomes","number-theoretic coincidences (p = 1 mod 4 with a singular rotation) occur rarely",V+"Random::nonCollinearPoints")
add("Random::select, rotate, string, multiple","Random::select returns an element of the container; Random::rotate returns a cyclic rotation of the range; Random::string has the requested length and only characters of the alphabet; Random::multiple has the requested length and values in range.",
 "for all containers and random outcomes","depends on all draws",V+"Random::select",V+"Random::rotate",V+"Random::string",V+"Random::multiple")
add("Random::maximum / minimum / minmax stay in range","Random::maximum(lower, upper, n) and Random::minimum return values of [lower, upper); Random::minmax(n, ...) returns the maximum for n > 0, the minimum of -n draws for n < 0 and throws for n = 0; for small n the maximum is exactly the largest of n uniform draws.",
 "for all bounds, n and random outcomes","extreme-value branches depend on floating point and huge bounds",V+"Random::maximum",V+"Random::minimum",V+"Random::minmax")
add("isPerm decides permutations","isPerm(range, offset) is true iff the range contains each of offset..offset+size-1 exactly once; if false, the reported witness is an element that is out of range or occurs twice.",
 "for all finite ranges of integers and all offsets","infinitely many ranges",V+"isPerm(ForwardIt, ForwardIt, T)")
add("isPerm(A, B) decides multiset equality","isPerm(A, B) is true iff A is a rearrangement of B; if the answer is negative although both ranges have the same size, it carries an element of A as witness.",
 "for all pairs of finite ranges","infinitely many ranges",V+"isPerm(ForwardItA, ForwardItA, ForwardItB, ForwardItB)")
add("Sortedness predicates","areIncreasing / areDecreasing / areNonIncreasing / areNonDecreasing are true iff the whole sequence is sorted accordingly; the witness is the position of the first violation.",
 "for all finite sequences","infinitely many sequences",V+"areIncreasing",V+"areDecreasing",V+"areNonIncreasing",V+"areNonDecreasing",V+"anyAdjacent")
add("areDistinct decides distinctness","areDistinct(range) is true iff no two elements are equal; a negative answer carries an element that occurs at least twice.",
 "for all finite sequences","infinitely many sequences",V+"areDistinct")
add("allAdjacent quantifies over adjacent pairs","allAdjacent(range, p) is true iff p holds for all pairs of neighbouring elements; anyAdjacent iff for some; noneAdjacent iff for none; the container overloads agree with the iterator overloads.",
 "for all finite sequences and all predicates","the container overload of allAdjacent is a template which tests may never instantiate",V+"anyAdjacent",V+"noneAdjacent",V+"allAdjacent")
add("Case handling and string comparison","toLower/toUpper change exactly ASCII letters and nothing else, are idempotent and inverse on letters, and stringEqual(a, b, false) holds iff a and b are equal up to ASCII case, stringEqual(a, b, true) iff a and b are identical.",
 "for all byte strings","infinitely many strings",V+"toLower",V+"toUpper",V+"stringEqual",V+"isToken")
add("range enumerates arithmetic progressions","range(from, to, step) returns exactly from, from+step, ... strictly before to (below for positive, above for negative step), without overflow, for bounds anywhere in the 64-bit range.",
 "for all 64-bit from, to, step (step different from 0 and -2^63)","2^192 arguments; overflow only near the ends of the 64-bit range",V+"range")
add("thueMorse","thueMorse(i) satisfies t(0)=0, t(2i)=t(i), t(2i+1)=1-t(i) for all 64-bit i.",
 "for all 64-bit arguments","2^64 arguments",V+"thueMorse")
add("Modular multiplication and power are exact","mulMod(a,b,m) = a*b mod m and powMod(b,e,m) = b^e mod m, result in [0,m), for all 64-bit arguments with m > 0, e >= 0 - without overflow in the 128-bit and in the 64-bit fallback code path.",
 "for all 64-bit arguments","2^192 arguments, overflow only in corners",V+"mulMod",V+"powMod",V+"applyMod",V+"details::mulMod",V+"details::powMod")
add("multInv returns the modular inverse","multInv(n, m) returns the x in [0,m) with n*x = 1 mod m if n and m are coprime and -1 otherwise.",
 "for all 64-bit n and m > 0","2^127 arguments",V+"multInv",V+"details::extendedEuclid")
add("isPrime never rejects a prime, never accepts small composites","isPrime(n) is true for every prime n; if isPrime(n) is false then n is not prime; every accepted n is a prime.",
 "for all 64-bit integers","2^64 arguments; strong pseudoprimes are extremely sparse",V+"isPrime",V+"details::powMod")
add("primes lists exactly the primes","primes(lower, upper) returns in increasing order exactly the primes p with lower <= p < upper.",
 "for all bounds in the 64-bit range","sieve index errors depend on parity and position of the window",V+"primes")
add("Convexity predicates","isStrictlyConvex(points) accepts exactly the strictly convex polygons in counter-clockwise order; isConvex accepts exactly the convex polygons in counter-clockwise order.",
 "for all polygons with bounded integer coordinates","infinitely many polygons; failures need collinear or self-winding configurations",V+"isConvex",V+"isStrictlyConvex",V+"details::assertBounds")
add("isCCW is the sign of the enclosed area","isCCW(points) holds iff the doubled signed area of the polygon is positive; it does not depend on the starting vertex, and flips under reversal unless the area is zero.",
 "for all polygons with bounded integer coordinates","infinitely many polygons; overflow only in corners",V+"isCCW",V+"cross")
add("Strict integer tokens are canonical","InputStream::integer(lower, upper) on a space sensitive stream accepts exactly the canonical decimal spelling (no sign other than one minus, no leading zeros, no -0) of a 64-bit integer v with lower <= v < upper, returns v, and consumes exactly that token; everything else ends with the failure verdict.",
 "for all input byte sequences and all bounds","infinitely many inputs",V+"InputStream::integer",V+"INTEGER_REGEX",V+"details::parse")
add("A strict validator pins down the file byte by byte","If a validator that reads a sequence of tokens, spaces and newlines in space sensitive mode and finally calls eof() accepts a file, then the file is byte for byte the concatenation of the tokens it returned with exactly the separators it requested; conversely every such file is accepted.",
 "for all validator read sequences and all input files","all files times all validators",V+"InputStream::string",V+"InputStream::space",V+"InputStream::newline",V+"InputStream::eof",V+"InputStream::noteof")
add("Whitespace insensitivity","In space insensitive mode (output validators) the outcome and the values read depend only on the sequence of whitespace separated tokens, never on the amount or kind of whitespace.",
 "for all read sequences and all pairs of inputs with the same token sequence","all inputs",V+"InputStream::string",V+"InputStream::space",V+"InputStream::eof")
add("What a generator prints, a strict reader reads back","Printing a list of integers with the library's output stream (default separators) and reading it with InputStream::integers in space sensitive mode returns the same list.",
 "for all lists of 64-bit integers and separators used by the defaults","infinitely many lists",V+"OutputStream",V+"details::join",V+"InputStream::integers")
add("expect functions accept exactly the expected value","expectString / expectInt / expectReal succeed iff the next token is the expected one (up to case or tolerance when configured) and fail with the stream's verdict otherwise.",
 "for all inputs and expected values","infinitely many inputs",V+"InputStream::expectString",V+"InputStream::expectInt",V+"InputStream::expectReal")
add("realStrict enforces the number of decimals and plain notation","InputStream::realStrict(lower, upper, minDecimals, maxDecimals) accepts only tokens in plain decimal notation without superfluous leading zeros whose number of decimals lies in [minDecimals, maxDecimals).",
 "for all input tokens and bounds","infinitely many tokens",V+"InputStream::realStrict",V+"STRICT_REAL_REGEX")
add("Trailing or missing data is never accepted","After the last read, eof() accepts iff nothing (space sensitive) or only whitespace (insensitive) is left; any read beyond the end of the input fails with the configured verdict; no read call succeeds without consuming input.",
 "for all inputs and read sequences","infinitely many inputs",V+"InputStream::eof",V+"InputStream::noteof",V+"InputStream::check")
add("Constraint bounds are respected and logged","After any sequence of bounded reads, the constraint log contains per name exactly one line, in order of first use, with the tightest observed minimum and maximum, the union of the declared bounds and correct flags whether the bounds were attained.",
 "for all sequences of logged values and bounds","all histories",V+"Bounds",V+"Constraint",V+"ConstraintsLogger")
add("Command line parsing","CommandParser[\"--name\"] yields exactly the arguments following the (unique) occurrence of --name up to the next command; a repeated command is rejected; missing commands use the given default.",
 "for all argument vectors","infinitely many argument vectors",V+"CommandParser",V+"Command",V+"Parameter",V+"details::parse")
add("Multipass state hand-over","In pass k (k = 0, 1, ...) the validator sees pass number k and the previous state it reads is byte for byte what pass k-1 wrote, never something older or written in the same pass.",
 "for all numbers of passes and all written contents","all histories of passes",V+"Multipass")
add("Separated output","Writing a container with separator sep prints the elements in order with exactly one separator between neighbours and none at the ends; nothing else is printed.",
 "for all element lists and separators","infinitely many lists",V+"OutputStream",V+"details::join")
add("graph_val Graph: connectivity and component counting","After any sequence of addEdge calls Graph::isConnected / component queries report exactly whether all vertices are joined by paths of added edges; sameSet queries of the union-find are reachability.",
 "for all vertex counts, offsets and edge insertion histories","all graphs and all insertion orders (path compression and union by rank depend on order)",GV+"UnionFind",GV+"BaseGraph",GV+"Graph::addEdge",GV+"Graph::isConnected")
add("graph_val Graph: forests and trees","Graph::isForest is true iff the inserted edges contain no cycle (loops and repeated edges count as cycles); Graph::isTree iff the graph is additionally connected.",
 "for all edge insertion histories","all graphs",GV+"Graph::isForest",GV+"Graph::isTree",GV+"UnionFind")
add("graph_val Graph: bipartiteness","Graph::isBipartite is true iff the vertices can be 2-coloured such that every inserted edge joins different colours.",
 "for all edge insertion histories","all graphs",GV+"Graph::isBipartite",GV+"UnionFind")
add("graph_val: loops, multi-edges, degrees","hasSelfLoop / hasMultiEdge / degree queries and the neighbour lists agree with the multiset of inserted edges.",
 "for all edge insertion histories","all graphs",GV+"BaseGraph",GV+"Graph",GV+"DiGraph")
add("graph_val DiGraph: isDAG","DiGraph::isDAG returns a topological order if the graph is acyclic and nothing otherwise.",
 "for all edge insertion histories","all digraphs; the result depends on the global structure",GV+"DiGraph::isDAG")
add("graph_val DiGraph: isTree","DiGraph::isTree returns the root if the graph is a directed tree (every vertex reachable from the root by exactly one path) and nothing otherwise.",
 "for all edge insertion histories","needs a cycle next to an isolated root to fail",GV+"DiGraph::isTree",GV+"DiGraph::addEdge")
add("graph_gen: graph container refines a set of edges","After any sequence of addEdge / eraseEdge / setMinId calls, hasEdge, findEdge, getEdgeById, edgeCount, degree and the adjacency views of a graph_gen graph agree with the abstract map from vertex pairs to edge data; invalid calls (unknown vertex, self loop, id of an edge that does not exist) throw without changing the graph; erasing an edge that does not exist reports false.",
 "for all operation sequences, directed and undirected","all histories; the xor-keyed adjacency sets could confuse edges only for particular ids",GG+"GraphType",GG+"GraphType::addEdge",GG+"GraphType::eraseEdge",GG+"GraphType::findEdge",GG+"GraphType::setMinId",GG+"EdgePointerCompair")
add("graph_gen: randomGraph(n, m) has exactly m edges","randomGraph(n, m) returns a simple graph on n vertices with exactly m different edges and without self loops for every random outcome, and the index-to-pair map behind it is a bijection, so every such graph is equally likely.",
 "for all n, 0 <= m <= number of pairs, directed and undirected, all random outcomes","all n; the triangular index folding could collide for single n",GG+"randomGraph(Integer, Integer)")
add("graph_gen: pruefer / randomTree produce trees","pruefer(code) returns a tree in which vertex v has degree 1 + (number of occurrences of v in the code), different codes give different trees, and randomTree(n) is therefore a uniformly random labelled tree for every n.",
 "for all codes and all n","n^(n-2) codes for every n",GG+"pruefer",GG+"randomTree")
add("graph_gen: randomGraph(degrees) realises the degree sequence","randomGraph(degree, averageFlips), if it returns, returns a simple graph in which vertex i has degree degree[i], no matter which flips are drawn; it throws only if no such graph exists.",
 "for all degree sequences, flip counts and random outcomes","all sequences and flip histories",GG+"randomGraph(const std::vector<Integer>&, Integer)")
add("graph_gen: elementary families","independent, clique, bipartite, star, path, cycle, grid, hypercube, completeTree, booleanLattice, lolly and broom have the documented vertex sets and exactly the documented edges.",
 "for all parameters","all parameters",GG+"clique",GG+"bipartite",GG+"star",GG+"path",GG+"cycle",GG+"grid",GG+"hypercube",GG+"completeTree",GG+"booleanLattice",GG+"lolly",GG+"broom")
add("graph_gen: wheel","wheel(n) consists of a cycle of n outer vertices all joined to vertex 0.",
 "for all n >= 3","all n",GG+"wheel")
add("graph_gen: rado","rado(n) joins i < j iff bit i of j is set (the documented Rado graph).",
 "for all n","differs only at powers of two",GG+"rado")
add("graph_gen: graph operators","complement, reverse, undirected, directed, combine, append, permutate, product, cartesian, strongProduct, lineGraph and power compute the usual graph operations and return well-formed graphs (every edge stored exactly once).",
 "for all graphs","all graphs",GG+"GraphType::complement",GG+"GraphType::reverse",GG+"GraphType::combine",GG+"GraphType::append",GG+"GraphType::permutate",GG+"GraphType::product",GG+"GraphType::cartesian",GG+"GraphType::lineGraph",GG+"GraphType::power",GG+"GraphType::range")
add("graph_gen: randomBipartite","randomBipartite(n, m, k) returns exactly k different edges, each between the two sides, for every random outcome.",
 "for all n, m, 0 <= k <= number of pairs, directed and undirected, all random outcomes","all parameters",GG+"randomBipartite(Integer, Integer, Integer)")
add("xoshiro256**: jump() equals 2^128 steps","Xoshiro256ss::jump() moves the generator to exactly the state reached by 2^128 calls of operator(), so jumped generators do not overlap within 2^128 outputs.",
 "for all 2^256 states","2^128 steps cannot be executed",RN+"Xoshiro256ss::jump",RN+"Xoshiro256ss::operator()")
add("xoshiro256**: full period","From every non-zero state the generator returns to its state after exactly 2^256-1 steps and never earlier; the state update is a bijection; no seed leads to the all-zero state.",
 "for all 2^256 states and all 2^64 seeds","period 2^256-1 cannot be executed",RN+"Xoshiro256ss")
add("AES-256 block cipher conforms to FIPS-197","The block function used by the secure random engine equals the AES-256 cipher of FIPS-197 (substitution box and field multiplication tables included) for every key and block, and is a bijection on blocks for every key.",
 "for all 2^256 keys and 2^128 blocks","2^384 pairs; a single wrong table entry is visible only for few blocks",SR+"AES256",SR+"SBOX",SR+"GF_MUL_TABLE",SR+"keyExpansion")
add("AES_RNG never repeats a counter block","The counter of AES_RNG is a 128-bit little-endian counter: after k calls it is start + k mod 2^128, so no cipher input block repeats within 2^128 calls, and seeds s != t start at different blocks.",
 "for all seeds and all call counts","carry propagation over many bytes happens after 2^64 or more calls",SR+"AES_RNG")
add("PNG writer round trip","A standard PNG decoder (signature, chunk lengths, CRC-32, zlib stored blocks, Adler-32, filter 0, RGBA8) applied to the file written for an image returns exactly the image, for every size and content within the size limit.",
 "for all image sizes and pixel contents","all images; checksum/table errors show only for particular bytes",PN+"PNGWriter",PN+"details::CRC32",PN+"PNG::write")
add("PNG drawLine","drawLine(a, b) terminates for all end points, colours a and b and only pixels of their bounding box, exactly max(|dx|,|dy|)+1 of them, consecutive ones being neighbours.",
 "for all end points inside the image","all pairs of points; termination is a liveness property",PN+"PNG::drawLine")
add("PNG floodFill","floodFill(p, colour) recolours exactly the 4-connected region of pixels that have p's colour and leaves all other pixels unchanged; it terminates.",
 "for all images, start points and colours","all images",PN+"PNG::floodFill")
add("PNG fillRectangle","fillRectangle(a, b, border, fill) terminates, paints exactly the rectangle spanned by a and b, border colour on the rim and fill colour inside.",
 "for all corner points inside the image","hangs or mis-paints for almost all arguments, but only when called",PN+"PNG::fillRectangle")
add("Colour arithmetic stays in range","Colour addition, scaling, blending and interpolation produce channels in 0..255 (alpha in 0..255), never divide by zero and leave opaque colours opaque.",
 "for all colours","2^64 colour pairs",PN+"Color",PN+"details::combine",SV+"Color")
add("SVG bounding box","After any sequence of drawn shapes the viewBox computed by the SVG writer contains every included point and is the smallest such box (together with the initial one).",
 "for all sequences of included points (exact arithmetic)","all drawing histories",SV+"SVG::includeInBB",SV+"SVG::write")
add("isSimple decides simplicity","isSimple returns true exactly for the lists of points that form a simple polygon (at least three vertices, no zero-length edge, no two edges with a common point except the vertex between neighbours), however the search tree of its status is balanced, and never overflows or uses an invalid iterator for coordinates up to 2^30-1.",
 "for all point lists, all tree shapes","sweep line algorithms fail only on rare degenerate position combinations (vertical edges, touching vertices, shared end points)",V+"isSimple")
add("xoshiro256**: equidistribution","Over one period of 2^256-1 calls, from every non-zero state, every 64-bit word except 0 is returned exactly 2^192 times and 0 one time less; moreover every sequence of four words except four zeros is returned by four consecutive calls exactly once.",
 "for all non-zero states, all words and all quadruples of words","counting over 2^256 calls cannot be executed",RN+"Xoshiro256ss::operator()")
add("Settings: command line over program over defaults, frozen after init","After init a tolerance is the value of its own flag (float_absolute_tolerance, float_relative_tolerance), else of float_tolerance, else what the program assigned before init, else 1e-6; space and case sensitivity are on iff the program or the command line switched them on; --seed decides the seed. init throws exactly for a second call, a repeated command, a seed that is no integer or a tolerance that is no number; after init every assignment to a setting throws and changes nothing.",
 "for all argument vectors, earlier assignments and later calls","unbounded argument vectors; the order and the precedence of flags",V+"ValidateBase::details::init",V+"SettingBase::operator=",V+"details::initialized")
add("Validator streams use the settings","After the init function of InputValidator, AnswerValidator, OutputValidator and Interactor the streams read from the documented sources, with the sensitivity, the verdict and the tolerances given by the settings (documented: real(lower, upper) uses the global tolerance).",
 "for all argument vectors and earlier assignments","a forgotten constructor argument shows only with particular flags and borderline numbers",V+"InputValidator::init",V+"AnswerValidator::init",V+"OutputValidator::init",V+"Interactor::init")
add("Random::convex returns convex polygons","Random::convex(n, dim) returns n points with coordinates strictly between -dim and dim that form a convex polygon, listed counter-clockwise, which reaches the coordinates dim-1 and 1-dim in x and y; isConvex accepts it; nothing overflows and the comparator given to std::sort is a strict weak ordering.",
 "for all n and dim with 3 <= n <= 8*dim-8, dim < 2^30, all draws, all conforming std::sort and std::partition","all polygons; a degenerate result or an ordering violation appears only for particular draws",V+"Random::convex",V+"details::cyclicSort")
add("normal and exponential sample the named distributions","normal(mean, stddev) is normally distributed with that mean and standard deviation, exponential(lambda) exponentially with rate lambda; the bounded versions have the same distribution under the condition that the result is in [lower, upper) and always return such a value; wrong arguments throw.",
 "for all arguments and all measurable sets of results (exact real arithmetic, independent uniform real())","a distribution is a statement about infinitely many runs; a statistical test cannot tell a wrong parameter or a small bias for all arguments",V+"Random::normal",V+"Random::exponential")
add("geometric and binomial sample the named distributions","geometric(p) is the number of failures before the first success of probability p for 0 <= p < 1, binomial(n, p) the number of successes in n independent trials of probability p; the bounded versions have the same distribution under the condition that the result is in [lower, upper) and always return such a value; wrong arguments throw.",
 "for all arguments and results (exact real arithmetic, independent uniform real())","a distribution is a statement about infinitely many runs; undefined conversions occur only for particular p and draws",V+"Random::geometric",V+"Random::binomial")
add("graph_gen: randomGraph and randomBipartite with an edge probability","randomGraph(n, p) and randomBipartite(n, m, p) contain every possible edge independently with probability p (the documented Erdos-Renyi graph), directed and undirected.",
 "for all n, m, p and every graph as outcome, given that Random::binomial has its law (C73)","a probability is a statement about infinitely many runs; a factor two in the number of trials is invisible in a single graph",GG+"randomGraph(Integer, Real)",GG+"randomBipartite(Integer, Integer, Real)")
add("graph_gen: randomGrowingGraph","randomGrowingGraph(n, p) is a simple graph on [0, n) in which vertex i has floor(p * X_i) smaller neighbours, X_i independent and uniform in [0, i+1), and given these numbers all choices of the neighbours are equally likely and independent.",
 "for all n, p in [0, 1], and every graph as outcome","the law of the whole graph cannot be tested",GG+"randomGrowingGraph")
add("graph_gen: networks for flow algorithms","ffWorstcase(n) has 2n vertices and a maximum flow of 2^n from 0 to 2n-1 (documented), which the algorithm of Ford and Fulkerson with a depth first search in the order of the edges only finds one unit at a time; mcmfWorstcase(n) has 2n+2 vertices and a positive flow from 0 to 2n+1; the edges are those of the constructions, every capacity and cost fits, and other n are rejected.",
 "for all n","a maximum is a statement about all flows; overflow only for the largest n",GG+"ffWorstcase",GG+"mcmfWorstcase")
add("floatEqual, floatLess and floatGreater","floatEqual(given, expected, absTol, relTol) is true exactly if the finite values differ by at most absTol or by at most relTol times |expected| (up to the errors of the roundings), or both are NaN, or both are infinities of the same sign; negative and NaN tolerances throw; every value equals itself; with tolerances zero it is equality; floatLess and floatGreater are both true exactly if floatEqual is, and one of them always is unless exactly one value is NaN.",
 "for all binary floating point formats with rounding to nearest even, all values and tolerances","borderline values of 2^80 * 2^80 pairs; overflow, underflow and division by zero",V+"details::floatEqual",V+"floatLess",V+"floatGreater")
add("Graphs from the generator to the validator","A graph is written as its numbers of vertices and edges and one line per edge; the documented validator program (example/inputValidator.graph.cpp) accepts a file if and only if it is the canonical text of a tree within the limits, answers WA to every other file, and never throws, crashes or answers FAIL; every tree of randomTree(n), renumbered from 1 and written, is accepted by it.",
 "for all files (byte strings), all graphs, all outcomes of the random generator","the set of files is infinite; generator and validator are only tested against each other on samples",GG+"operator<<","example/inputValidator.graph.cpp",GV+"Graph",V+"InputStream::integer")
add("SVG files are well-formed and complete","The file that an SVG image is written to is a well-formed XML document whose root is svg with the bounding box (enlarged as the program asked for) as viewBox, and which contains exactly one element per drawn shape, of the kind, with the geometry (vertical axis downwards) and with the stroke and fill of the shape, and one comment per comment, in the order of drawing; no file is written exactly if nothing was drawn.",
 "for all sequences of shapes, styles, comments and texts, for every notation of numbers without quotes and markup","all drawing histories; a missing quote or a repeated attribute shows only for one combination of optional parts",SV+"SVG::write",SV+"attribute",SV+"Stroke",SV+"Shape",SV+"Comment")
add("Real numbers are read correctly rounded","isReal and InputStream::real accept exactly the decimal notations (optional sign, digits with optional point, optional exponent) of numbers within the range of Real and return a Real nearest to the written number, never an infinity or NaN; real(lower, upper) accepts every notation of every number in [lower, upper] and otherwise only what is within the tolerances of a bound; realStrict returns values in [lower, upper) only.",
 "for all texts, all bounds and tolerances, in every binary floating point format","infinitely many texts; rounding goes wrong only near ties, bounds only next to them",V+"isReal",V+"details::parse",V+"InputStream::real",V+"InputStream::realStrict",V+"REAL_REGEX")
add("Real numbers that are written can be read again","OutputStream writes every finite Real as optional minus sign, natural number without leading zeros, point and six digits, nearest to the number; reading the text gives a number that floatEqual with the default tolerance finds equal, exactly the same one if it was the Real of a number with at most six decimals; a strict stream accepts the text, also with realStrict and bounds that the number respects; infinities and NaN are not accepted.",
 "for all finite numbers of every binary floating point format with the range of a single or larger","all values of Real; needs the interplay of two roundings",V+"OutputStream::init",V+"DEFAULT_PRECISION",V+"details::parse",V+"floatEqual",V+"InputStream::realStrict")
add("Numbers in SVG files","The numbers in SVG files are notations of the numbers of the image with a relative error of at most 5e-6 in shapes (exact with up to six significant digits) and an absolute error of at most 5e-7 in the view box, so that the file is a well-formed document with the drawn shapes; the shapes lie in the view box, different shapes have different texts, and an image of positive size has a view box of positive size.",
 "for all rational coordinates and all sequences of shapes","all coordinates; the notation switches to exponents and drops digits for large and small numbers only",SV+"attribute",SV+"SVG::write")
add("Failure messages point to the failing piece","When a read function rejects a seekable input, the message names line and column of the word or character at which it failed, shows an excerpt of that line with at most 80 characters (the whole line if it is short) and marks the piece in it; writing the message never throws.",
 "for all inputs and all positions at which reading may stop","all inputs; off-by-one errors and out of range positions depend on line length, word length and the end of the file",V+"InputStream::fail",V+"TEXT_ELLIPSIS")
add("Bounded random reals","real(upper) returns a number of the format in [0, upper) that is the rounded product of upper and the last value of real(); real(lower, upper) returns a number of the format in [lower, upper) that divides the interval in the ratio of the last value of real() up to a few roundings. Both end with probability one, and reject bounds that are not finite or not in order.",
 "for every binary floating point format, all bounds of the format and every sequence of engine words","the rejected results need extreme values of real(); rounding cases depend on all bits of the bounds",V+"Random::real(Real upper)",V+"Random::real(Real lower, Real upper)")
add("Random::real is uniform","For every t in (2^-64, 1], real() is less than t with probability t, up to a relative error of 2^-52 from the conversion of the mantissa to double.",
 "for all t in (2^-64, 1], counted over all pairs of the first two engine words","there are 2^128 pairs of words; the probabilities of small values cannot be estimated by sampling",V+"Random::real()")
add("The message of expectString shows the difference","If the next token is not the expected string, the message contains an excerpt of both strings of at most 25 characters that keeps the character at their first difference, and its position counted from 1 if it is beyond the sixth character. Writing it never throws. The two excerpts are different.",
 "for all expected strings and tokens, with and without case","which of 16 combinations of cuts is taken depends on both lengths and the position of the difference",V+"InputStream::expectString",V+"details::stringEqual")
add("The example programs do what they say","example/inputValidator.cpp accepts exactly the files in the described format and the constraints example those with n and n numbers; answerValidator.cpp accepts exactly one number per test case and line; outputValidator.cpp and interactor.cpp accept exactly the right answer and give WA for all others; multipassInteractor.cpp accepts iff both answers of the team are equal; generator.cpp writes n different numbers.",
 "for all input files, answers and outputs of the team, with and without white space and case","the programs are decided for all byte sequences; a test of the example cannot show that nothing else is accepted","example/inputValidator.cpp","example/inputValidator.constraints.cpp","example/answerValidator.cpp","example/outputValidator.cpp","example/interactor.cpp","example/multipassInteractor.cpp","example/generator.cpp")
add("The distribution of Random::maximum and Random::minimum","Random::maximum(lower, upper, n) has the distribution of the largest of n independent uniform integers of [lower, upper), for small n where it draws them and for large n where it draws a single real number; Random::minimum has that of the smallest. Results for large n are in the interval whatever the rounding.",
 "for all bounds, all n, all thresholds; for all formats of Real and all values of the power","the distribution is not visible in single runs, and the rounding only matters at the ends of huge intervals",V+"Random::maximum",V+"Random::minimum")
add("What the generators make, the validators accept","Every result of Random::perm, shuffle, distinct and of the sorted sequence generators is accepted by the matching check (isPerm, isPermOf, areDistinct, areIncreasing, ...). A validator graph that is told the edges of a generated graph finds neither loops nor multiple edges, has the same vertices, edges and degrees, and its isConnected, isBipartite and isTree are true exactly when the generated graph has that property; so paths, stars, brooms, complete trees and random trees are trees, cycles, cliques, grids, hypercubes and lollipops are connected, grids, hypercubes, complete and random bipartite graphs are bipartite, and random directed trees are trees with root 0.",
 "for all arguments (within 64 bits), all generated graphs and all random choices","generator and validator are separate pieces of code with separate representations; agreement for all sizes and all random choices cannot be tested",
 V+"Random::perm",V+"isPerm","src/graph_gen.h","src/graph_val.h")
add("isConvex and isSimple together decide convexity","A polygon is convex and listed counter-clockwise iff isConvex and isSimple both accept it; it is strictly convex iff isStrictlyConvex and isSimple both accept it. In particular convex polygons are simple, and a simple polygon that isConvex accepts has no right turn between any three of its vertices in their order.",
 "for all polygons with coordinates up to 2^30-1 and all shapes of the search tree of isSimple","a statement of plane geometry about polygons with any number of vertices; isConvex looks at neighbouring vertices only and on its own accepts polygons that wind several times",
 V+"isConvex",V+"isStrictlyConvex",V+"isSimple")
add("The graph generator example writes a random connected DAG","Whatever the random generator does, example/generator.graph.cpp writes the text of a directed graph with the vertices 1..19 whose 33 edges are those of two cubes, a triangle and the six connecting edges, in any order, with the vertices renamed and all edges directed along one numbering of the vertices. So the written edges are different, without loops, acyclic, and connect all vertices. Renaming at random, directing edges from the smaller to the larger vertex and renaming again makes such a graph from every undirected graph.",
 "for all outcomes of the random generator; for the recipe also for all undirected graphs","there are 19!^2 renamings and 33! orders of the edges; a test sees a few of them","example/generator.graph.cpp",GG+"append",GG+"directed",GG+"permutate",GG+"setMinId",GG+"operator<<")
add("Random rearrangements of graphs are uniform","permutate() gives every graph that arises by renaming the vertices the same probability (the number of renamings that leave the graph unchanged, divided by n!); permutateEdges() makes every order of the k edges, with each undirected edge written either way, equally likely (1/k! or 1/(k! 2^k)); subgraph(k) keeps every set of k edges with the same probability.",
 "for all graphs with any number of vertices and edges; draws uniform and independent (C02)","a law of distribution; tests sample it for a few small graphs and cannot tell small deviations",GG+"permutate",GG+"permutateEdges",GG+"subgraph")
add("The example visualizers draw what they describe","visualizer.png.cpp makes an image one pixel larger on each side in which the lines of the test are black, everything connected to the border is transparent and the enclosed rest is white, blends magenta over it and writes the file; visualizer.svg.cpp writes a well-formed file that holds the polygon of the test and the line of the answer, with every point of both at least 3 away from the border.",
 "for all sizes, all numbers of lines inside the image, all polygons and polylines","pictures are not compared by tests; the claim is about all sets of lines and all points of the drawn shapes",
 "example/visualizer.png.cpp","example/visualizer.svg.cpp","src/visualizer_png.h:floodFill","src/visualizer_png.h:drawLine","src/visualizer_svg.h:SVG")
add("Reading with constraints","Passing constraint[name] to string, integer, real, realStrict or their list versions changes neither the values, nor the input consumed, nor the verdict. The constraints file describes exactly the values that were read, each once, in order, with the bounds of its call and under its name, also if the validator ends with a verdict in the middle of a list. In every line the bounds enclose the values.",
 "for all validators (adaptive programs of read calls), all inputs and all sensitivities","tests check a few validators; the claim is about every program and every point at which it can fail",
 "src/validate.h:InputStream","src/validate.h:Constraint","src/validate.h:ConstraintsLogger")
add("Helpers for containers","append(c1, c2) adds the elements of c2 behind those of c1 and changes no other container, also if c2 is c1 itself or refers to elements of c1. flatten gives the elements of nested containers from left to right for every depth. asFunction of an rvalue keeps the elements, asFunction of an lvalue follows the container. Sorting with shorter or longer orders by length, MinPQ and MaxPQ give their elements in increasing and decreasing order.",
 "for all contents, capacities, growth policies, aliasing of the arguments, depths of nesting, strict weak orderings and correct standard libraries","whether an append to itself reads freed memory depends on the capacity; tests see it only with a sanitizer and for the sizes they try",
 "src/validate.h:append","src/validate.h:flatten","src/validate.h:asFunction","src/validate.h:shorter","src/validate.h:MinPQ")
add("AES_RNG: equidistribution","Among any 2^128 consecutive calls of AES_RNG every 64-bit word is returned exactly 2^64 times. Each call returns the exclusive or of the two halves of the AES-256 cipher text of its counter, least significant byte first.",
 "for all keys, all counters and all words","counting over 2^128 calls cannot be executed; a folding that loses bits looks random byte by byte",
 "src/secure_rng.h:AES_RNG::operator()")
add("Random results do not depend on the compiler","For the same words of the engine every function of Random returns the same result and uses the same number of words on all compilers: with and without __int128, for every implementation of std::sort and std::partition that keeps the promises of the standard, and for every floating point format of long double.",
 "for all random programs, all sequences of words, all sorting and partition functions that fulfil their contracts, all formats","a test runs with one compiler, one standard library and one format of long double",
 "src/validate.h:details::mul", "src/validate.h:mulMod", "src/validate.h:Random::increasing", "src/validate.h:Random::convex", "src/validate.h:Random::real", "README.md:3")
add("The laws of random programs hold for their executions","If the engine returns independent, uniformly distributed 64-bit words, then every program over Random::integer and Random::bit ends with probability one, its outcome is determined by the words, and the probability of a set of results is the one obtained by treating every call as an exactly uniform and independent choice; Random::real is below t with probability t up to a relative error of 2^-52.",
 "for all random programs with non-empty 64-bit ranges, all sets of results, with and without __int128","infinite sequences of words and rejection loops without a bound: only the measure of sets of infinite sequences tells what has probability one",
 "src/validate.h:Random::integer", "src/validate.h:Random::bit", "src/validate.h:Random::real")
add("mcmfWorstcase is a worst case for successive shortest paths","Successive shortest paths, however they choose among the cheapest paths and however much they push, need at least 2^n-1 and at most 5*2^(n-2)-2 rounds for a largest flow of mcmfWorstcase(n); after k < 2^n rounds the flow is at most k + k/4. The smallest cost of a largest flow is (5*2^(n-2)-2)*(2^(n-1)-1), which fits into 64 bits exactly for n <= 31.",
 "for all 2 <= n <= 60 and all runs of the algorithm","the number of runs and of rounds is exponential; a smallest cost is a statement about all flows",
 "src/graph_gen.h: mcmfWorstcase")
add("Random programs need few words","If the engine returns independent, uniformly distributed 64-bit words, then a random program that makes at most D calls of Random::integer and Random::bit takes at most 2*D words on average, whatever the ranges are; Random::integer needs more than n words with probability ((2^64 mod (upper-lower)) / 2^64)^n < 2^-n. So shuffle, distinct, perm, multiple, partition, string, bracketSequence, prime, randomGraph, randomTree and permutate take a number of words that is linear in the size of their output on average, also where distinct draws nearly all values of a huge range.",
 "for all random programs with non-empty 64-bit ranges and all bounds D on their calls; all arguments of the functions named","the rejection loop has no bound, so no number of runs bounds its average, and the worst ranges for it are near 2^63",
 "src/validate.h:Random::integer", "src/validate.h:Random::shuffle", "src/validate.h:Random::distinct", "src/validate.h:Random::prime")
add("convexHull of the archived generator computes convex hulls","Of points that are not on one line convexHull returns the convex polygon whose vertices are exactly the points on the boundary of the hull (also those inside of edges), counter-clockwise, each once, starting at the smallest one, followed by this first vertex once more; in general its path is closed and has all points on its left; of points on one line it returns the way there and back, of a single point only this point.",
 "for all lists of integer points with absolute coordinates below 2^30, with repetitions","a hull algorithm with collinear points has far more configurations than any test suite; a single wrong comparison only shows on degenerate inputs",
 "archive/convex.cpp:convexHull")
add("Random::convexDisk returns n points","convexDisk(n, dim) returns n different points in the disk of radius dim that form a convex polygon.",
 "for all n and dim, all candidates of the sampling and all executions","sampling by floating point functions, and loops without a bound",
 "archive/convex.cpp:Random::convexDisk")
add("The archived generator against Java's sort produces permutations","HackedSort(n, min) always ends and its data is a permutation of min, ..., min+n-1.",
 "for all n and min and all results of the shuffles","the recursion has a different shape for every n, and no test runs the file",
 "archive/javaSortHack.cpp:HackedSort")
add("The archived polygon generator returns a simple polygon of the sampled points","Random::polygon(n, dim) ends and returns a simple polygon whose vertices are the n sampled points, all in (-dim, dim)^2.",
 "for all n and dim, all points and directions that can be sampled, all choices of cut points, all implementations of std::partition and std::sort","the recursion splits the points along random lines; the bad cases are right angles and points on a line, which random tests rarely hit",
 "archive/polygon.cpp:details::findLine, Random::point, Random::polygon")
add("Files of output validators: messages, state and next pass are exactly what the program wrote","An output validator or interactor that finds its files leaves exactly what it wrote to juryOut and teamOut at the end of judgemessage.txt and teammessage.txt, after what was there before; pass k of a multipass program gets exactly what pass k-1 wrote to nextstate, NEXT() leaves exactly what was written to nextpass in nextpass.in and ends with the exit code for accepted; no other file changes. init throws if a file is missing, before anything else happens to files other than the messages.",
 "for all programs, file systems, arguments, sequences of passes and interleavings of writes","depends on open modes, on the order of openings and on whole sequences of program runs that share a directory",
 "src/validate.h:MESSAGE_MODE, OutputStream, InputStream, OutputValidator::init, Interactor::init, Multipass::init, Multipass::NEXT")
add("Objects made by join: rvalues are stored, lvalues are referenced","An object made by join prints the elements, separated by the separator (the null character for none), of a char array all but the last one. If the container is given as rvalue the object stores all values and prints them whenever it is printed; else it stores a reference and prints the elements that the container has at that time.",
 "for all containers, tuples, arrays, lists of arguments, separators and changes of the memory between making and printing the object","concerns objects that are printed later, after arbitrary changes of the memory; undefined behaviour of invalid iterators is invisible in most runs",
 "src/validate.h:join, details::TempWriter, details::JoinListCapture, OutputStream::join; doc/validate.md")
add("Images are written to their files","When a PNG or SVG object with a file name is destroyed, the file contains the picture. After Visualizer::init the file name.png or name.svg contains exactly what was drawn to image when the program ends, whatever happens to other images, and no other file changes.",
 "for all programs that make, copy, assign, move, draw, write and destroy images, all file names, all contents of files and all unspecified values of moved objects","concerns all orders of constructors, moves and destructors and the unspecified contents of moved objects; a test sees one of them",
 "src/visualizer_png.h:PNG::write, ~PNG, Visualizer::init; src/visualizer_svg.h:SVG::write, ~SVG, Visualizer::init; doc/visualizer_png.md; doc/visualizer_svg.md; example/visualizer.svg.cpp")
add("caseSensitive.regex accepts the words of the pattern","On a stream whose case sensitivity is the setting, string(caseSensitive.regex(pattern)) reads a word exactly if it is a word of the pattern, up to the case of letters if the setting is off; all other words give the verdict of the stream.",
 "for all patterns of characters, ranges, concatenations, alternatives and repetitions, all settings, all inputs","quantifies over all patterns and all words; words of any length and every combination of cases are accepted or not",
 "src/validate.h:SettingCaseSensitive::regex, InputStream::string(pattern), InputStream::check; doc/validate.advanced.md; example/outputValidator2.cpp")
add("The archived generator programs write files that strict validators read","For all command lines, archive/polygon.cpp, convex.cpp and javaSortHack.cpp take the numbers after --n and --dim or --min (else the defaults) and write the number n and then n points, one per line, or n numbers in one line, so that a validator that reads exactly this with strict streams accepts the file and reads the generated values. Other command lines give an exception and no output.",
 "for all command lines, all random words, all points and values","quantifies over all command lines and random generators; the validator accepts one text only, so a superfluous blank or a wrong number of points in any of the files would be fatal",
 "archive/convex.cpp:main; archive/polygon.cpp:main; archive/javaSortHack.cpp:main; src/validate.h:CommandParser, join, InputStream::integer")
add("Alphabets and the laws of string, rotate and shuffle of a pair","Every alphabet constant consists of the characters that its name promises, each once, and the functions isLower, isUpper, ... hold exactly for the characters of the alphabet of this name. Random::string(n, alphabet) makes all strings of length n over a duplicate free alphabet with the same probability (by default over the small letters), in general every character has the share of its occurrences; all rotations of Random::rotate are equally likely and shuffle exchanges the parts of a pair with probability 1/2.",
 "for all characters, lengths, alphabets, ranges and strings","probabilities of all strings of all lengths over all alphabets",
 "src/validate.h:LETTER, UPPER, LOWER, VOWEL, CONSONANT, ALPHA_NUMERIC, DIGITS, BRACKETS, Random::string, Random::rotate, Random::shuffle; doc/validate.md")
add("Every end of a validator has a culprit","A validator that reads several streams (test case, answer of the jury, answer of the team), deciding by the values read what to read next, ends abnormally only by its own doing, because a stream does not contain what a call asks for (then with the verdict of exactly this stream), or because it misuses a function (separator other than space and line break, negative number of elements, expected string that is not a token; then with an exception, whatever the texts are). An output validator that misuses nothing and whose jury files are right thus ends with AC, WA or normally for every answer of a team, and with WA only if the program said so or the team's answer is not what was asked for. Reading one stream never moves another.",
 "for all programs over any streams, all settings, all texts","quantifies over all programs and all texts of a team that tries to provoke a judge error; tests try a few malformed answers",
 "src/validate.h:InputStream, OutputValidator::init, Verdicts, judgeAssert")
add("Bounded random reals are uniform up to rounding","If the engine returns independent, uniformly distributed words, the probability that real(lower, upper) is less than t is (t-lower)/(upper-lower) up to 2*(e+2^-52), where e is the error of rounding of one iteration, 8*2^-p*max(|lower|,|upper|)+2^(emin+1), relative to upper-lower; for real(upper) it is t/upper up to 2*(2^-p+2^(emin-1)/upper+2^-52).",
 "for all binary floating point formats, all bounds lower < upper of the format and all t between them, over the product measure on infinite sequences of words","a probability over infinitely many words; the rejected values, which distort the law, are too rare to be seen by sampling",
 "src/validate.h:Random::real")
add("Successive draws are independent","If the engine returns independent, uniformly distributed words, the results of successive calls of random functions (integers, bits, reals, everything built from integers and bits) are independent: the probability that all of them are in given sets is the product of the probabilities; if a call depends on earlier results, its law is the average over these.",
 "for all sequences of calls, all programs that draw integers and bits, all bounds, all sets of results, over the product measure on infinite sequences of words","a joint probability over infinitely many words; the number of words that a call takes is random, and rejected words could leak into the next call",
 "src/validate.h:Random::integer, Random::bit, Random::real")
add("exponential and geometric in floating point","If the engine returns independent, uniformly distributed words and std::log and std::log1p have a relative error of at most e, then exponential(lambda) is below t with probability 1-exp(-lambda*t) up to e+2^-52, and geometric(p) is below k with probability 1-(1-p)^k up to 2*(e+2^-p)+2^-52 (p: precision of the format). exponential is never negative or NaN, the bounded variants stay in [lower, upper) after rounding, and geometric(p) does not overflow for p >= 2^-53 if real() is at least 2^-1074. Parameters outside the domain throw before a number is drawn.",
 "for all binary floating point formats, all functions std::log and std::log1p within the error, all lambda > 0, p, bounds, all t and k of the format, over the product measure on infinite sequences of words","a probability over infinitely many words; the effects of rounding at the ends of the range are too rare to be seen by sampling",
 "src/validate.h:Random::exponential, Random::geometric; doc/validate.md")
add("Loops that redraw sample the conditional distribution","A loop that calls a random function until the value is accepted ends with probability 1 if values are accepted with positive probability at all, and returns values with the law of the random function conditioned on acceptance. So real(upper), real(lower, upper), exponential(lower, upper, lambda) and geometric(lower, upper, p) return in floating point exactly the conditional law of one iteration. The bounded exponential and geometric numbers have the conditioned exponential and geometric law, up to the error of one iteration divided by the probability that a value is accepted.",
 "for all random functions that take their words one after the other, all conditions, all bounds and parameters of the four functions, over the product measure on infinite sequences of words","a probability over infinitely many words and an unbounded number of iterations",
 "src/validate.h:Random::real, Random::exponential, Random::geometric")
add("normal in floating point","If the engine returns independent, uniformly distributed words and the functions std::log, std::sqrt and std::cos have errors of at most e, then normal(mean, stddev) is below t with the probability of the normal distribution with mean `mean` and variance `stddev` (see C72 for the name of the parameter), up to 378*e + (e*|mean|+2^(emin+1))/sqrt(stddev) + 2^-49. normal(lower, upper, mean, stddev) returns values in [lower, upper) after rounding, with the law of one iteration under the condition that one of its two values is accepted, and ends with probability 1 if this has positive probability. If the error of std::sin is at most e too, this is the normal distribution conditioned on [lower, upper), up to 2*(15*d+2^-44) divided by the probability of [lower, upper), with d = 378*e + (e*|mean|+2^(emin+1))/sqrt(stddev). A negative or NaN stddev and bounds that are not in order throw before a number is drawn.",
 "for all binary floating point formats that are fine enough, all functions of the standard library within the error, all means, all positive stddev that the format can hold, all t, over the product measure on infinite sequences of words","a two dimensional transformation of random numbers over infinitely many words; errors near the axis and at the ends of the range are too rare to be seen by sampling",
 "src/validate.h:Random::normal; doc/validate.md")
add("binomial in floating point, small expected value","If the engine returns independent, uniformly distributed words and std::log and std::log1p have a relative error of at most e, then binomial(n, p) with min(p, 1-p)*n < 10 is at least k with the probability of at least k successes in n independent trials of probability p, up to k*(2*(e+2^-p)+2^-52) (n-k+1 in place of k for p > 1/2) plus the probability that the call has no defined result, which is at most (n+1) times the probability that real() is below 2^-1074 for min(p, 1-p) >= 2^-53. For every p the result is in [0, n] and the loop takes at most n+1 iterations; binomial(n, 0) is 0 and binomial(n, 1) is n. binomial(lower, upper, n, p) returns only numbers in [lower, upper) and has exactly the law of one call under the condition that the loop ends with it, and so the binomial law conditioned on [lower, upper), up to 4*upper*(2*(e+2^-p)+2^-52) plus five times the probability that one call has no defined result, divided by the probability of [lower, upper). Parameters outside the domain throw before a number is drawn.",
 "for all binary floating point formats, all functions std::log and std::log1p within the error, all n that the format counts to, all p of the format, all k, over the product measure on infinite sequences of words","a probability over infinitely many words and up to n+1 iterations; undefined behaviour for tiny p needs a p that nobody tests",
 "src/validate.h:Random::binomial; doc/validate.md")
add("binomial in floating point, rejection method","binomial(n, p) returns a number in [0, n] for all n and p, in floating point, whatever the functions of the standard library return in the rejection method. The rejection method (min(p, 1-p)*n >= 10) returns numbers with the law of one iteration under the condition that the loop ends with it, exactly. Every call has a defined result.",
 "for all binary floating point formats, all functions std::sqrt, std::log and std::lgamma, all n and p, over the product measure on infinite sequences of words","an unbounded number of iterations; the case without a defined result needs a value of real() that appears once in 10^16 calls",
 "src/validate.h:Random::binomial; doc/validate.md")
with open('/verif/properties.jsonl','w') as f:
    for p in P: f.write(json.dumps(p,ensure_ascii=False)+"\n")
print(len(P))
