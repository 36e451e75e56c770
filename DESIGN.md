# Formal model of icpc-header in Lean 4

## 1. Trusted base

* Lean 4.33.0's kernel, and Mathlib as installed.
* Axioms: every theorem listed in MANIFEST.json depends on at most `propext`, `Classical.choice`
  and `Quot.sound`. No own axioms, no `sorry`, no `native_decide`, no `bv_decide`.
  Finite whole-table facts use `decide` / `decide +kernel` (kernel evaluation).
* The faithfulness of the transcription C++ -> Lean. Every model definition cites file and lines
  of /repo. The C++ code itself was neither compiled nor run.
* Parts of the C++ standard library are modelled by their specification (vector, deque, set, map,
  sort, stable_sort, from_chars, iostream extraction, regex_match).

## 2. Modelling conventions

* C++ `Integer` (int64) is Lean `Int`, with explicit checks where overflow can occur; `UInteger`
  is `Nat` reduced modulo 2^64 or `BitVec 64`. A step that would be undefined behaviour in C++
  yields the separate outcome `ub`, an exception the outcome `throw`, process exit with a verdict
  the outcome `exit`. A theorem about successful results thus never holds because of a totalised
  definition.
* `char` is Lean `Char`: the byte b is the code point b. Theorems quantify over all `Char`, which
  contains all bytes. The C locale is assumed.
* Randomness: a random function is a tree (`Rand`) of requests for bounded draws. Theorems
  quantify over all answers. The lowest layer (`Random::integer`, `bit`, `real`) is modelled on
  sequences of 64-bit engine words. "Uniform" means counting: either of engine words
  or of sequences of bounded draws.
* Floating point: `Random::real()` is modelled exactly (conversion to a 53-bit double).
  `Model/Float` has every binary format (IEEE 754 rounding to nearest, no sign of zero); it is used
  for `floatEqual`, real numbers as text and bounded random reals (C77, C80-C82, C84). Other
  floating point code is modelled over exact rationals, or left out; this is said at each place.
* Unbounded loops use fuel; theorems state what holds for every fuel and that enough fuel exists.

## 3. File layout (lean/Verif)

* `Model/*.lean`  transcription of the code (with file/line references)
* `Spec/*.lean`   small independent specifications
* `Lemmas/*.lean` helper lemmas
* `Props/*.lean`  the property theorems, with non-vacuity `example`s beside them

## 4. Plan per property

| id | what is modelled | how it is proved |
|----|------------------|------------------|
| C01, C02 | `Random::integer` on engine words, incl. 128-bit and fallback multiplication | arithmetic; exact count of accepted words per value |
| C03, C05 | `shuffle`, `perm(count)` over bounded draws | permutation by induction; bijection draws <-> permutations |
| C04 | `distinct` with its sparse map | invariant: map = partially shuffled identity; bijection |
| C06 | `perm(cycles)` | cycle type of the constructed permutation |
| C07 | `perm(count, fix)` | partial for duplicate-free `fix`; refutation for repeated entries |
| C08 | `partition` | telescoping sum over the sorted cut points; overflow for very small `min` -> partial |
| C09 | `bracketSequence` | invariant on prefix; product of probabilities telescopes |
| C10 | `increasing`, ..., `multiple` | sort specification + C04; exact law of `nonDecreasing`, `nonIncreasing` by counting arrangements, their uniformity refuted for all parameters -> partial |
| C11 | `discrete` | counting of prefix sums |
| C12 | `real()` with exact rounding to double | refutation (1.0 reachable) + partial |
| C13 | `prime` | refutation at `upper = 2` + partial |
| C14 | `nonCollinearPoints` | determinant modulo p; refutations + partial |
| C15, C16 | `select`, `rotate`, `string`, `maximum`, `minimum`, `minmax` | direct |
| C17-C21 | `isPerm`, `areDistinct`, adjacency predicates | induction; refutation for the container overload of `allAdjacent` |
| C22 | character functions, `stringEqual`, `isToken` | case analysis |
| C23, C24 | `range`, `thueMorse` | arithmetic, induction |
| C25, C26 | `applyMod`, `mulMod`, `powMod`, `multInv` | loop invariants; refutations in corners + partial |
| C27 | `isPrime` | Fermat/Euler argument: no prime rejected; accepted numbers below 2^27 are prime (Lemmas/PrimeRange: the order of a base modulo the smallest factor restricts the cofactor to an arithmetic progression, the remaining candidates are checked by the kernel); the 7-base Miller-Rabin fact for all 64-bit numbers is not provable here -> partial |
| C28 | `primes` | sieve invariant, relative to C27 -> partial |
| C29 | `isConvex`, `isStrictlyConvex` | completeness proved, soundness refuted + partial |
| C30 | `isCCW` | shoelace sum |
| C31-C37 | `InputStream` over a byte list, regexes by a derivative matcher | grammar theorems, program-level simulation |
| C38 | `Bounds`, `Constraint`, `ConstraintsLogger`; reals are an abstract linear order (no NaN) | invariant over log histories; the flags concern the bounds given with each value |
| C39 | `CommandParser` | induction over the argument vector |
| C40 | `Multipass` over a file-system map | invariant over passes |
| C41 | `OutputStream` join | induction |
| C42-C47 | graph_val.h | union-find invariant vs. reachability, parity; refutations for `DiGraph` |
| C48-C56 | graph_gen.h | refinement to edge maps; bijections; Pruefer decoding |
| C57, C58 | rng.h | GF(2)-linear algebra with kernel-checked polynomial certificates |
| C59, C60 | secure_rng.h | tables vs. GF(2^8); inverse cipher; little-endian counter |
| C61-C65 | visualizer_png.h | encoder/decoder round trip; Bresenham invariant; flood fill reachability |
| C66 | visualizer_svg.h bounding box over the rationals | induction |
| C67 | validate.h `isSimple`: events, status as a list, descent with arbitrary pivots | sweep invariant; partial, spikes refuted |
| C68 | rng.h output function and state update | inverse of the output function, four outputs determine the state, counting |
| C69 | validate.h settings, `details::init`, command parser | `init` as a function of the command line |
| C70 | validate.h `init` of the four validators: arguments of the stream constructors | from C69; partial, tolerances refuted |
| C71 | `Random::convex`, `details::cyclicSort` | vectors sorted by direction, rotated to start at any vector, have no right turn; end of the loop: geometric law, one accepted draw for every n, counting at the limit; partial, degenerate polygon refuted |
| C72 | `normal`, `exponential` | change of variables for the Box-Muller transform, rejection by independence; partial (exact arithmetic), `stddev` refuted |
| C73 | `geometric`, `binomial` | law of the gaps, induction on the number of successes; rejection method: change of variables on every cell, one linear equation per result; bounded binomial: the numbers that `binomial` leaves are independent of its result; partial (exact arithmetic, hat and squeeze of the rejection method are hypotheses, proved for one case), `p = 0` refuted |
| C74 | `randomGraph(n, p)`, `randomBipartite(n, m, p)`; the binomial draw is a parameter, in the composed theorems it is the one of C73 | from C49, C56 by summation over the number of edges; total probability for the composition with C73; partial, directed graphs refuted |
| C75 | `randomGrowingGraph`; the degree is a parameter, in the composed theorem `p * real(0, i+1)` in exact arithmetic | law of the neighbours by induction on the vertices; the composition integrates it over the product measure; on engine words (`growCall`) the loop is an average of loops with given degrees (C113), the law of the degrees in floating point follows from C112; partial |
| C76 | `ffWorstcase`, `mcmfWorstcase` | loop invariants; maximum flow by a flow and a cut (`Spec/Flow`); the depth first search layer by layer (`Spec/FordFulkerson`); partial, documented value refuted |
| C77 | `floatEqual`, `floatLess`, `floatGreater` | IEEE arithmetic of an arbitrary binary format; error of rounding, gap between neighbouring numbers; partial, overflow refuted |
| C78 | graph output, example/inputValidator.graph.cpp, with `randomTree` | the program as a function on byte strings; C31, C42-C45, C50 composed |
| C79 | the text of SVG files (attributes, strokes, fills, shapes, comments, `SVG::write`) | round trip through an independent XML reader, induction over the items |
| C80 | `isReal`, `details::parse<Real>`, `real`, `realStrict` with concrete numbers | language of the regular expression = decimal notations; rounding is nearest; monotone at the bounds |
| C81 | `OutputStream << Real` and reading it again | digits of the nearest multiple of a millionth, two roundings, monotonicity of rounding; partial, bounds of `realStrict` refuted |
| C82 | `std::ostream << Real` and `std::to_string(Real)` in SVG files | six significant digits by logarithm; partial, view box and distinctness refuted |
| C83 | `InputStream::fail` | induction over the words before the position; arithmetic of the two cuts; partial, newlines and the last word refuted |
| C84 | `Random::real(upper)`, `Random::real(lower, upper)` in every binary format | bounds and errors of rounding; gaps between numbers of the format for the end of the loops; on the product measure of C98 a value below any positive bound appears almost surely |
| C85 | `Random::real()` on engine words | counting of words by trailing zeros and mantissa |
| C86 | the message of `InputStream::expectString` | cases of the cuts; first difference from C22; partial, strings that contain `[...]` refuted |
| C87 | the example programs (`outputValidator2.cpp` with its missing semicolon in `Model/CaseRegex`) except `generator.graph.cpp` (C91) and the visualizers (C93) | words read in both space modes; composition with C31-C37, C04, C41; partial, four examples refuted |
| C88 | `maximum`, `minimum` for all `n`; `exp2(log2(x)/n)` exact, or any value in [0,1] of a floating point format | `n < 5`: induction on the draws; `n >= 5`: n-th root of a uniform number; partial, formats with few digits refuted |
| C89 | no new model: the generators and the validators modelled for C03–C10, C17–C20, C42–C56 | the theorems about both sides are composed through their specifications; connectivity of the families by induction on vertices, colourings given explicitly |
| C90 | no new model: `isConvex`, `isStrictlyConvex` (C29) and `isSimple` (C67) | strict convexity decided; convexity decided for polygons without spikes, refuted with a spike. A simple closed polygon with left turns at each vertex and a fan of left turns around its first vertex: the ray from the first vertex through any vertex leaves the polygon, so the directions are sorted and local turns give all turns (Lemmas/ConvexSimple, ConvexTour); the edges of a convex polygon are apart by supporting lines (Lemmas/ConvexEdges) |
| C91 | example/generator.graph.cpp on the generator graph model | the maps of C52-C55 composed: edge lists as arrangements of renamed edge lists, acyclic because the renamed numbering is a rank, connected by a walk in the unrenamed graph |
| C92 | no new model: `permutateRandom`, `permutateEdges`, `subgraph` (C55) with the law of draws (C03, C04) | expectation over shuffles as a sum over renamings; renamings act on maps, so all copies have the same number of renamings; coins of the written direction by induction on the edges |
| C93 | `example/visualizer.png.cpp`, `example/visualizer.svg.cpp` after the reading of their numbers | composition of C61-C64 (the region of the corner is what the lines do not cut off; the border ring is free) and of C66, C79, C82; PNG refuted at its last statement |
| C94 | the overloads of the read functions with a `Constraint&`; the logger is a state that survives the end of the program | simulation between a program with and without constraints, its history equals that of its longest part that succeeds; then C38; bounds for reals with tolerance refuted |
| C95 | `append`, `flatten`, `asFunction`, `shorter`, `longer`, `MinPQ`, `MaxPQ`; vectors in a memory of blocks that can be freed | invariant: every vector owns its block; induction over the loop, the depth, the queue; views of the vector itself refuted |
| C96 | the folding in `AES_RNG::operator()` | translation of the first half of a block permutes the fibres of the folding; C59, C60; proved (added because a wrong shift in the folding broke no theorem) |
| C97 | the two versions of `details::mul`, `mulMod`; `Random::convex` and the sorted sequences with arbitrary sorting and partition functions; `real(upper)` for two formats | relation between random programs preserved by `run`; uniqueness of sorted lists of integers; for `convex` the law of the bag of edges by exchanging permutations under the shuffles (partial), refuted word by word; for `real(upper)` exactness of products with few digits (partial), refuted for 53 against 64 digits |
| C98 | `Rand.run`, `realWords` on infinitely many independent uniform words (product measure) | the probability of an event is its average over the first word; a rejected word leads back to the same event, which gives an equation with one solution; proved |
| C99 | `mcmfWorstcase` (graph_gen.h 961-983) with successive shortest paths (`Spec/MinCost`) | potentials show that the flows of the algorithm have smallest cost; an induction over the two last vertices shows where the smallest cost bends; no round passes a bend; proved |
| C100 | `Rand.run` on infinitely many independent uniform words; number of words taken | average over the first word: a rejected word costs one word and leads back to the same program, fewer than half are rejected; proved |
| C101 | `convexHull` (archive/convex.cpp 5-23) | while points are popped for a new point, all points after the top of the stack are on the left of the line to the new point; angles of forward directions are ordered; a path forward and then backward with all points on the left only makes left turns; proved |
| C102 | `Random::convexDisk` (archive/convex.cpp 27-60), the candidates of `sampleRing` (floating point) are a parameter | the loop returns hulls without their last point, all points of which are on the boundary, so the last hull keeps all `n` and repeats the first; refuted |
| C103 | `HackedSort` (archive/javaSortHack.cpp 7-146) | symbolic execution of one level: of a segment without values, of any length from 47 on, it fills the two outer places on both sides and goes on with the rest; induction over the levels; refuted |
| C104 | `findLine`, `point`, `polygon` (archive/polygon.cpp 3-78) | `std::partition`, `std::sort` and the floating point test `n*sqrt(n) <= dim` are parameters, the first two with the contracts of the standard library; induction over the recursion: both parts are simple paths on different sides of the cut line and only share the cut point; the closing edge is extreme in the sampled direction; refuted in general |
| C105 | `MESSAGE_MODE`, constructors of both stream classes, `OutputValidator::init`, `Interactor::init`, `Multipass::init`, `NEXT`, verdicts, `~ConstraintsLogger` on a map from paths to contents; programs are functions from what can be read to what is written | every open stream stands at the end of its file, invariant over writes; induction over passes; partial, the message files are truncated |
| C106 | all overloads of `join`, `details::TempWriter`, `JoinListCapture`, `OutputStream::join` over the memory of blocks of C95 | induction over the loop for arbitrary later memories; partial, growing vectors, views and temporaries in braces refuted |
| C107 | constructors, assignments, `write` and destructors of `PNG` and `SVG`, both `Visualizer::init`, as actions on objects and files; unspecified values of moved objects are parameters | invariant (only `image` has the file) by induction over the actions, then C61 and C79; partial, empty pictures refuted |
| C108 | `SettingCaseSensitive::regex`, with patterns as syntax trees; `InputStream::string(pattern)` | induction over the pattern: the language of the compiled expression is the closure of the words under case; then the theorems on reading words |
| C109 | the functions `main` of archive/convex.cpp, polygon.cpp and javaSortHack.cpp | composition of C39, C41, C69, C101 to C104; induction over the lines for the validator; refuted for convex.cpp |
| C110 | the alphabet constants, `string`, `rotate`, `shuffle` of pairs | the constants are closed terms, all other characters are excluded by their code points; induction over the length for the law |
| C111 | programs over several `InputStream`s (`MProg`), the streams of `OutputValidator::init` | each call returns, rejects with the verdict of its stream, or throws for misuse independent of the text (cases); induction over the program; `C111_error` is an equivalence, so no other end exists |
| C112 | `Random::real(upper)`, `Random::real(lower, upper)` in every binary format on infinitely many words | all but the outermost values of `real()` are accepted in the first iteration and scaled up to the error of rounding of C84; the law of `real()` from C98, applied three times; proved |
| C113 | `WordFn` (functions on words), `Rand.run`, `realWords`, `real(lower, upper)` | a function that takes words one after the other splits the sequences by the words it takes; on each part the later words are independent of the earlier ones; countable sum; proved |
| C114 | `exponential`, `geometric` and their bounded variants (`Model/FloatDist`) in every binary format on engine words; `std::log`, `std::log1p` arbitrary with bounded relative error | `result < t` is an interval of values of `real()`, whose probability is known (C112); the ends of the interval move by a factor `1±e` in the exponent, which moves the probability by at most `e`; proved |
| C115 | loops that redraw until a value is accepted; `realUpper`, `realRange`, `exponentialIn`, `geometricIn` | the probability after `k` iterations is a geometric sum (C113: iterations are independent), limit by continuity of the measure; the laws of the bounded variants (`Props/BoundedLaws`) from the error of one iteration as in C114; proved |
| C116 | `normal` and its bounded variant (`Model/FloatNormal`) in every binary format on engine words; `std::log`, `std::sqrt`, `std::cos`, `std::sin` arbitrary with bounded errors | the sets of pairs `(u1, u2)` that give a value below `t` have intervals as sections, so two numbers of `real()` and two exactly uniform numbers differ by four errors of `real()`; exact numbers by Box and Muller (C72); forward error analysis of the formula outside of extreme `u1`; for the bounded variant the same for the pair of both values (sections of up to three intervals), with strips around the bounds where rounding may change a comparison; proved |
| C117 | `binomial` (`Model/FloatBinomial`), geometric method, in every binary format on engine words; `std::log`, `std::log1p` arbitrary with bounded relative errors; the rejection method is a parameter | the position after one gap has the geometric law up to the error of C114; induction on the number of successes with the tails of the binomial distribution, which are monotone in the position, so that the error adds up once per success; range and number of iterations by an invariant; proved for `p >= 2^-53`, defined results refuted for tiny `p` |
| C118 | rejection method of `binomial` (`Model/FloatBtrs`) in every binary format on engine words; all functions of the standard library arbitrary | range from the test of the candidate; the loop is a rejection loop over one iteration (C115); defined results refuted by following the words for which `real()` is 1 |

### Input and output streams (C31-C37, C41)

A stream is the list of characters not yet read, a read call a function from it to an outcome and the
remaining list. Failing is the outcome `exit onFail`; the reasons that are printed are not modelled; the position that
`fail` adds is in `Model/FailMessage` (C83, for seekable inputs; `tellg` fails after the end of the file was met). `regex_match` is
membership in the regular language, decided by derivatives. Real numbers are an abstract type with an
abstract parser and comparisons (`RealOps`) here; C80 instantiates it with floating point numbers.
A validator is a tree of calls (`Prog`) whose continuations may depend on the values read.
C32: what is accepted is described exactly for all programs and both case modes, with `expectReal` as the code has it (it is inverted, see C35); the returned values determine the bytes (up to case where case is ignored) for programs that return the tokens, that is, read no real numbers.

### Validator graphs (C42-C47)

Modelled: all of src/graph_val.h except `size()`, the constructors `Graph(n)`, `DiGraph(n)` (which are
`(0, n)`), and the rvalue overloads. `Graph.Reached l r E g` is the relation between insertion
histories and states, with queries in between (they compress paths). Vectors of the union-find hold
parents or negative ranks as in the code; `findSet` recurses with a bound that is proved never to be
reached. Allocation failure is not modelled. Specifications are on the list of edges: `Joined`
(equivalence closure), `Forest` (no closed walk with distinct edges), `TwoColourable`, `DirectedTree`
(exactly one walk from the root to every vertex).

### xoshiro256** (C57, C58, C68)

Modelled: all of src/rng.h; words are `BitVec 64`. Polynomials over GF(2) are natural numbers. The kernel
evaluates: the characteristic polynomial annihilates the 256 unit states; `x^(2^128)` modulo it is
the polynomial of `jump`; `x^(2^256) = x`; for each prime factor `q` of `2^256 - 1` the element
`x^((2^256-1)/q) + 1` has an inverse. The primes are certified by Lucas tests. Everything else (linearity,
multiplication, powers, orders) is proved for all states. C68: the output is an invertible function of the second
word, and four consecutive second words determine the state, so four outputs number the states.

### AES (C59, C60)

Modelled: all of src/secure_rng.h; bytes are `BitVec 8`, arrays vectors. `Spec/Aes.lean` transcribes FIPS 197 with
states as functions of row and column, inverses found by search, key words by recursion. The tables are
compared entry by entry in the kernel, the rest is refinement. Bijectivity: every step is injective
(MixColumns by its inverse matrix).

### PNG (C61-C65)

Modelled: src/visualizer_png.h with images as lists of rows (row 0 at the bottom, as in the code), the writer byte
by byte (its state is the file, the CRC register and the two Adler sums). `Spec/Png.lean` has a decoder
written from RFC 1950/1951/2083 that checks signature, chunk lengths, CRC (bitwise, no table), stored
blocks, Adler-32 and filter bytes. Loops over coordinates take fuel; theorems say how much suffices, or that
none does. Real factors are rationals, `llround` rounds half away from zero and is undefined
out of range. Not modelled: `init`, the predefined colours, the file being opened in
text mode (differs on Windows only), `fill` being a reference into the same image, allocation failure
(widths and heights below `2^60` in C62).

### SVG (C65, C66, C79)

Modelled: colours, and the bounding box with every shape as far as it calls `includeInBB`; coordinates are rationals. Not
modelled: the stroke width in the box (it is not part of it), rounding (the
`viewBox` is printed with six decimals).

`Model/SvgText` is the text of the file, character by character (C79); numbers are rationals and their notation is a
parameter. `Spec/Xml` is a reader for the part of XML 1.0 that is needed; it refuses everything it does not know, so what it
accepts is well-formed. `Spec/SvgText` lists the elements and attributes of the SVG recommendation.

### Generator graphs (C48-C56, C74-C76)

`Model/GraphGen` is the container: the deque `adj` is a list of lists of positions in `edges`; `setFind`,
`setInsert`, `setErase` compare by the exclusive or of the two ends, as `EdgePointerCompair` does. An
operation that takes an edge twice into `edges` is therefore visible. The abstract graph is a function
from pairs of vertices to optional data (`Spec/GraphGen`); `Good g dir lo n m` is the representation
invariant and `Agrees` lists what a user observes. C48 proves that every sequence of calls refines the
abstract map. The statement of C48 was corrected after reading the code: erasing a missing edge is not an
error but returns false.

`Model/GraphOps` are the operators on graphs. `Good` is preserved by all of them (`C55_built`: by every graph
that can be made at all), so the theorems of C55 take it as hypothesis and give `Good` and `Agrees` for the
map that `Spec/GraphOps` defines. Loops that only append to `edges` are modelled by the list that they append.
The queue of `power` is fuelled; the theorem holds for every fuel above the number of vertices. The power of an
undirected graph is not `Good` (repeated edges), so `C55_power_undirected` describes `getEdges` and `operator[]` directly.

`Model/Families` are the families without randomness (lines 629-804). Nested loops that only add edges are modelled
by the list of pairs in the order of the loops (`addPairs`); `1 << k` is the shift of a 32-bit `int`: undefined
unless `0 ≤ k < 32`, and `-2^31` for `k = 31` (C++20). The relations are in `Spec/Families`.
`cycle` compiles only for undirected graphs and `wheel`, `grid`, `hypercube`, `lolly`, `broom` exist only for those.

`Model/RandomGraph` are `randomGraph(n, m)` and `randomBipartite(n, m, k)`. The map from indices to pairs is shown to
be a bijection onto the possible edges (`Spec/RandomGraph`), and C04 makes every set of indices equally likely.
`Model/RandomGraphP` are the versions with a probability (C74) and `randomGrowingGraph` (C75). Their floating point
parts, `Random::binomial(t, p)` and `p * Random::real(0, i+1)` (its range is `C75_degree_float`), are parameters: the theorems hold for every random
program in their place that has the stated range or law.

`Model/Flow` are the two networks at the end of the file (C76). That `ffWorstcase` is a worst case is a statement about
an algorithm outside the repository; `Spec/FordFulkerson` is the usual program for it (adjacency lists in the order of
the edges, reverse arcs, depth first search, augmentation by the smallest residual capacity). `Spec/MinCost` is the
algorithm of successive shortest paths in the same sense for `mcmfWorstcase` (C99).

`Model/Tree` are `pruefer` and `randomTree`. `Spec/Tree` defines trees as connected edge sets with one edge less than
vertices. The relation `Dec V c S` (the code `c` takes the smallest leaf of `S` again and again) is shown to be a
bijection between codes and trees without reference to the program, and the loop with its `current`/`skip` is shown
to compute it. The directed `randomTree` is the same tree with all edges away from 0 (`IsRooted`).

`Model/DegreeGraph` is `randomGraph(degree, averageFlips)` with the priority queue as a decreasing list. The theorem of
Havel and Hakimi (`Lemmas/HavelHakimi`: the neighbours of a vertex can be exchanged for those of the largest degrees)
shows that it only throws if there is no such graph; the exchange of two edges used in its proof is also the flip.

`Model/GraphIO` is the text output of graphs and the example program that reads and judges a tree (C78). The program is
specified for every byte string; the theorem composes those about the stream (C31), the validator graph (C42-C45)
and, for the second part, the generator (C50).

### Simple polygons (C67)

The specification is in the real plane: points on segments by a parameter in `[0, 1]`. The status `std::set` is the
list of its elements; an insertion descends with arbitrary pivots, so the theorems hold for every search tree.
For the proof the plane is sheared by `(x, y) -> (2^32 x + y, y)`: this turns the lexicographic order of events into
the order of abscissas, makes every edge the graph of an affine function and keeps the signs of cross products.
Invariant: in the status each edge is below the next wherever both exist, and touches it only if they are
neighbours in the polygon. From it follows that at every abscissa the status is sorted with ties only between
neighbours, so a crossing that was never reported cannot exist. Without spikes at most two edges of the status
pass through an event point, which makes ties in the comparison harmless.

### `Random::convex` (C71)

`Model/Convex.lean`, `Spec/Convex.lean`, `Lemmas/CyclicOrder.lean`, `Lemmas/Convex.lean`, `Props/Convex.lean`.
`std::sort`, `std::partition` and `Random::binomial` are parameters: any function that keeps the contract of the
standard (`SortContract`, `PartitionContract`) and any `binomial` with results in `[0, n]`.  `std::sort` promises
something only for a strict weak ordering, so that the comparator is one for non-zero directions is part of the proof.
The main lemma `cr_blocks` says: cut a list of vectors that is sorted by direction and has sum zero into four parts;
the sums of the second and the third part make no right turn.  It is proved by rotating the list such that the
sorting starts at the sum `D` of the two parts.  `Props/ConvexEnds.lean`: the loop has returned after `fuel` iterations with
probability `1 - (1 - a) ^ fuel`, where `a > 0` if `binomial(n - 2)` can return `(n - 2) / 2`; for `n = 8 * dim - 8` the
differences must all be -1, 0 or 1, and counting such partitions bounds `a`.  Not modelled: the law of the polygon.

### Settings and init (C69, C70)

`Model/Init` has the settings, the flag `initialized`, the seed and the parsed command line as one state; each line of
`details::init` is a step. Streams are the arguments of their constructors. `Spec/Init` says which argument is the
value of a flag and which flag wins. `getRaw` looks through all arguments, so a file name equal to a flag counts
as the flag, and a flag at the end has no value and is ignored; both are examples in `Props/Init`.

### Continuous distributions (C72, C73)

`Model/Ideal` has `normal`, `exponential`, `geometric` and `binomial` with the field of real numbers in place of `Real`: nothing is
rounded, and `real()` returns the elements of a sequence. `Spec/Ideal` gives this sequence the product of infinitely many uniform
distributions on (0, 1) (Mathlib's `Measure.infinitePi`); the laws are Mathlib's `gaussianReal` and `expMeasure`, conditioned with
`cond`, and explicit formulas for the discrete ones. Loops have a number of iterations to follow; `probIn` asks for one that
suffices, so a loop that does not end contributes nothing. Integer conversions and sums stay checked, which is where the
undefined runs of C73 come from. The rejection method of
`binomial` (Hörmann's BTRS) draws `x`, takes the floor of a transformation of it and keeps the result with a probability that is the exact weight times
the derivative of the transformation, over a constant. Two facts about its constants are needed: that this quotient is at most 1 (`BtrsHat`) and
that the fast test accepts no more than the exact one (`BtrsSqueeze`). Hörmann found the constants by numerical search; both facts are
hypotheses of the theorems about large `n`, and are proved for `n = 20`, `p = 1/2`, so the hypotheses are not empty. What the rounding of the floating point types does to these laws is not covered here;
`exponential`, `geometric`, `normal` and the geometric method of `binomial` are modelled a second time in floating point (C114 to C117).

### Exponential and geometric numbers in floating point (C114, C115)

`Model/FloatDist` has lines 1457-1485 with the arithmetic of `Model/Float` and `real()` on engine words. `std::log` and
`std::log1p` are parameters. `Spec/FloatDist` says what is assumed of them: on `(0, 1]` (on `(-1, 0]` for `log1p`) the
result is a finite number with relative error at most `e`. The C++ standard promises no accuracy, so this is an
assumption about the library; C libraries have `e` near `2^-p`. `std::floor` is exact, `std::llround` is undefined
outside 64 bits. `Spec.FirstAccepted` is the meaning of a loop that redraws, as an inductive relation without fuel.

`Model/FloatNormal` does the same for lines 1430-1455 (C116). `Spec.Fp.Accurate` collects the assumptions: relative errors of
`std::log` and `std::sqrt` and the absolute error of `std::cos` are at most `e`, a rounding too; the smallest numbers of the format are
negligible; no intermediate result overflows. `std::sin` is arbitrary except in `C116_bounded_law`, where its absolute error is at most `e`.

`Model/FloatBinomial` has lines 1487-1503 (C117): assertions, the exchange of `p` and `1 - p`, the choice of the method and the loop of the
geometric method, with `fuel` as a bound on its iterations (`n + 1` always suffices). Lines 1504-1541 are the parameter `large`, which `Model/FloatBtrs` fills in (C118): one iteration with all its roundings, and the loop.
The bounded variant (lines 1543-1549) is a loop around it; its law follows from C115.

### Comparison of reals (C77)

`Model/Float` is binary floating point arithmetic: a format is a precision and two exponents, an operation rounds the
exact rational result to nearest, ties to even, and overflows to infinity. NaN and infinities are values. The theorems
hold for every format (soundness of the relative test needs `emin + 2p <= 0`, which says that a quotient of two numbers
that differ cannot underflow). That `long double` behaves like this is part of the trusted base of C77. The other
properties about reals do not use this model, except C80 to C82.

### Real numbers as text (C80-C82)

`Model/RealText` adds `std::from_chars` (pattern and range as in the standard, value correctly rounded) and the three ways in
which numbers are printed: fixed with six decimals (`OutputStream`, `std::to_string`) and `%Lg` (attributes of SVG shapes).
`Spec/RealText` says which texts denote which rational numbers, without the model; `Nearest` is the distance to all numbers of
the format. Simplified: no sign of zero (the printing functions take the sign as an argument), `DOUBLE_FALLBACK` is not defined,
the code of libstdc++ is trusted to round correctly. `realOps` instantiates the parameter of the input streams.

### Probabilities

`prob r v` is the probability of the result `v` if every bounded draw is uniform and independent. That
`Random::integer` turns uniform engine words into such draws is C01/C02; C98 lifts this
to whole programs on infinite sequences of independent uniform words; that the engine itself
delivers uniform words is not claimed.

## 5. Defects found

Each is a theorem `..._refuted` with a witness; the property concerned is listed as partial, and its
statement in properties.jsonl keeps the full claim.

* C04 `distinct`: the check `lower + count` overflows. C08 `partition`: `(min-1)*k` overflows.
* C07 `perm(count, fix)`: repeated fixpoints. C06 (beyond the property): negative cycle lengths.
* C10 `nonDecreasing` is not uniform, although documented. C12 `real()` can return 1.
* C13 `prime(lower, 2)` returns 2; `4*(upper-lower)` overflows. C16 `minimum` overflows for wide ranges.
* C14 `nonCollinearPoints`: repeated points, exceptions for documented arguments.
* C15 `rotate` of an empty range throws. C17 `isPerm`: `x - offset` overflows.
* C21 the container overload of `allAdjacent` computes `noneAdjacent`.
* C25 `powMod(x, 0, 1)` is 1. C26 `multInv` misses inverses of negative numbers.
* C28 `primes` reads out of bounds for wide windows.
* C29 `isConvex`, `isStrictlyConvex` accept winding and degenerate polygons. C30 `isCCW` overflows.
* C90 `isConvex` and `isSimple` both accept some polygons with a spike, e.g. (1,1) (2,2) (0,0) (3,2) (1,3).
* C67 `isSimple` accepts polygons with an edge that folds back onto the edge before it (a spike).
* C45 `outDegree`/`inDegree` count repeated edges once. C46 `isDAG` is nothing for every graph with an edge.
* C47 `DiGraph::isTree` returns the non-vertex `r` for some graphs that are not trees.
* C61 files with more than `2^31 - 7` bytes of image data are not PNG files (only the width is limited).
* C95 `append(v, view)` with a `std::span` or `std::string_view` of `v` itself reads freed memory whenever `v` has to grow.
* C94 `real(lower, upper, constraint)`: a number that passes only because of the tolerance is logged beyond the logged bound (1000000.5 with the bound 1000000).
* C93 `example/visualizer.png.cpp` never ends and writes no file: its last statement calls `fillRectangle` over the whole picture (C64).
* C64 `fillRectangle`: `y = a.y or ...` is an assignment; it does not end as soon as a corner is above row 1,
  and paints wrong rows otherwise.
* C65 scaling also scales alpha; `lerp(c, c, 0.5)` is not `c`.
* C55 undirected `power` stores every edge twice (`C55_power_undirected`: in both orders, while `operator[]` is right); `range` mixes vertices and positions unless the graph
  starts at 0; `permutate(perm)` reads out of bounds for a permutation that is too short.
* C52 `completeTree(level, c)` has one level less than documented; `booleanLattice` only joins neighbouring
  levels, in the opposite direction. C53 `wheel(n)` has a vertex too many and is not closed. C54 `rado` lacks the
  edges between `i` and `2^i`, and its shift overflows beyond `2^30 + 1` vertices.
* C51 `randomGraph(degree)` throws for zeros as soon as something is flipped, and takes negative degrees for zeros.
* C50 the directed `randomTree(0)` throws, the undirected one is empty.
* C71 `Random::convex(n, dim)` practically does not end for `n` near the asserted limit `8 * dim - 8`: at the limit one
  iteration succeeds with a probability of at most `(4/5)^(2 * dim - 2)`.
* C71 `Random::convex` can return points on one line, which `isConvex` rejects.
* C97 `Random::convex` is not reproducible: the polygon depends on the order in which `std::partition` leaves the elements
  and in which `std::sort` leaves parallel edges, although README.md and validate.h (19-21) promise the same results for
  all compilers.  `real(upper)` gives different numbers where `long double` has 53 instead of 64 digits.
* C72 `normal(mean, stddev)` multiplies by `sqrt(stddev)`: the argument is the variance.
* C74 the directed `randomGraph(n, p)` and `randomBipartite(n, m, p)` draw only half as many trials as there are
  possible edges: each edge has probability `p/2`.
* C76 the flow of `ffWorstcase(n)` is `2^(n-1)`, not the documented `2^n`.
* C77 `floatEqual` rejects numbers within a relative tolerance above one if their difference overflows; the documented
  `floatGreaterEqual` does not exist, the function is called `floatGreater`.
* C73 `binomial(lower, upper, n, p)` does not end if `[lower, upper)` contains no number from 0 to `n`; no assertion refuses it.
* C117 `binomial(n, p)` with a tiny positive `p` (up to about `2^-64`) passes the assertion, but the gap to the next success does not fit into
  64 bits and `std::llround` has undefined behaviour, with probability about one half for `p = 2^-65`.
* C118 `binomial(n, p)` with `p*n >= 10` divides by zero and calls `std::llround` of an infinity if `real()` returns 1 (as it does for the words
  `2^64 - 1` and `1`, since `std::ldexp` rounds to double precision).
* C73 `geometric(0)` passes the assertion but converts an infinity to an integer.
* C70 answer validators, output validators and interactors ignore the tolerance flags when they read reals in a range.
* C35 `expectReal` is inverted. C36 `realStrict` accepts `007` and `7.`.
* C79 the text of a `Comment` is not checked; with two hyphens in a row the SVG file is not well-formed XML.
* C81 numbers just below an upper bound are written as the bound; `realStrict` with the same bound rejects what the generator wrote.
* C82 shapes in SVG files have six significant digits, the view box six decimals: large images lose digits and shapes leave the
  box, tiny images get an empty box.
* C83 `InputStream::fail` names the wrong line when it fails at a newline, and no position at all when the failing word is the
  last one of a file without a newline at its end.
* C86 `expectString` shows the same text twice if a string contains `[...]` at the wrong place (contrived).
* C87 example/inputValidator.constraints.cpp rejects every file: input validators are space sensitive, and it reads no separators.
* C87 example/interactor.cpp accepts nothing if the number of the test is odd, as it then asks for an integer whose double is odd.
* C87 example/outputValidator.cpp and example/interactor.cpp compute `2*ans` for a number of the team, which may overflow.
* example/outputValidator2.cpp does not compile (line 44 has no semicolon); it also reads the number of the team from `juryAns`.
* C88 where `long double` has fewer than 62 digits, `maximum` for `n >= 5` may return a number far outside of the interval for intervals of width near 2^63.
* C99 the cost of the largest flow in `mcmfWorstcase(n)` exceeds 64 bits from `n = 32` on; `n <= 60` is accepted.
* C102 archive/convex.cpp prints `n + 1` points: the polygon is followed by its first vertex once more.
* C103 `HackedSort(n, min)` of archive/javaSortHack.cpp contains `min + n` and misses a smaller value from `n = 47` on; with a negative minimum most values can be -1.
* C104 `Random::polygon` of archive/polygon.cpp never returns if the points are on a line or for some right angles (`sign(dot)` of the cut point itself is 0, so a right angle puts it into the first part); other right angles and the direction `(0, 0)` give polygons that cross themselves.
* C105 `MESSAGE_MODE` is `out | ate`, which empties an existing file; the messages of earlier passes are lost.
* C106 `join(c)` of an lvalue container keeps iterators, not a reference: after the container has grown, printing misses the new elements
  or is undefined. `join({...})` keeps references to temporaries, so it cannot be stored.
* C107 an image that is empty (also a PNG with rows but without columns) leaves no file, and an old file remains; a failure to open the file is
  not reported.
* C87 example/outputValidator2.cpp (besides a missing semicolon) reads the solution of the team from `juryAns`; the right answer `Yes 6` makes the jury fail.

## 6. Mutation testing

`tools/mut.py` applies an edit to a scratch copy of the model and rebuilds; results are in
seeded/LOG.jsonl. The field `result` separates the cases: a property theorem or concrete example
failed; only a supporting lemma failed, so that the property theorems were not reached, which is
weaker evidence since a proof script can break for other reasons; the edit did not compile, which is
no evidence at all. The harness takes the committed sources and first builds them unchanged. With
`--deep` it assumes broken supporting lemmas (in the scratch copy only) and builds on, to see whether
concrete examples or property theorems fail as well (`after_stubbing_lemmas`; null if that build was
not completed).

## 7. Not modelled

The effect of rounding on the law of the rejection method of `binomial` (its roundings are in the model, C118, but the law is only shown in exact
arithmetic, C73), the underflow of `real()` in all random functions,
exception message texts, the syntax of regular expressions. Files are a map from paths to contents (`Model/Files`, C105); the operating system
below it (links, partial writes, concurrent processes) is not modelled.
