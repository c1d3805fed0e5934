{"id": "C01", "title": "Montgomery product is exact for every modulus", "statement": "For the field library generated for any odd modulus q, the raw Montgomery product of two n-limb operands, the second of which is below q, returns the unique n-limb number below q that is congruent to a*b*2^(-64n) mod q; the square does the same with a=b; no carry is ever lost in either of the two generated variants (with or without the 'no-carry' optimisation chosen by the builder).", "quantifier": "every odd modulus of any limb count, every pair of operands, both generated code variants", "why_tests_cant": "A lost carry shows only for operands near the top of the range, with probability about 2^-64 per limb; tests sample a few values of one or two moduli and cannot reach it or cover other moduli.", "anchors": ["src/fr_raw_generic.cpp.ejs:Fr_rawMMul", "src/fr_raw_generic.cpp.ejs:Fr_rawMSquare", "src/buildzqfield.js:ZqBuilder"]}
{"id": "C02", "title": "Single-limb Montgomery product is exact", "statement": "The product of an n-limb element below q by a 64-bit word through the single-word Montgomery routine returns the reduced n-limb representative of a*b*2^(-64n) mod q.", "quantifier": "every odd modulus, every element, every 64-bit word", "why_tests_cant": "Same carry argument as C01: failing operands form a vanishing fraction of the space.", "anchors": ["src/fr_raw_generic.cpp.ejs:Fr_rawMMul1"]}
{"id": "C03", "title": "Montgomery form conversion is a bijection", "statement": "Converting a reduced element to Montgomery form and back returns the same limbs, and so does the opposite order; conversion out of Montgomery form reduces any n-limb input to the canonical residue, and conversion into it accepts unreduced input.", "quantifier": "every odd modulus, every n-limb value", "why_tests_cant": "Round trips must hold on the whole 2^(64n) domain.", "anchors": ["src/fr_raw_generic.cpp.ejs:Fr_rawToMontgomery", "src/fr_raw_generic.cpp.ejs:Fr_rawFromMontgomery"]}
{"id": "C04", "title": "Raw add, subtract and negate are modular arithmetic with canonical results", "statement": "On reduced operands the raw addition, subtraction, negation, their long/short mixed forms and the sign-extending short-to-long conversion return the canonical residue of the exact integer result; the result of any of them can be fed to any other.", "quantifier": "every modulus, every pair of reduced operands, every 64-bit short operand below the modulus (not zero for the negated sum of a long and a short)", "why_tests_cant": "Errors sit on carry/borrow boundaries that depend on the modulus; no finite vector covers all moduli.", "anchors": ["src/fr_raw_generic.cpp.ejs:Fr_rawAdd", "src/fr_raw_generic.cpp.ejs:Fr_rawAddLS", "src/fr_raw_generic.cpp.ejs:Fr_rawSub", "src/fr_raw_generic.cpp.ejs:Fr_rawSubSL", "src/fr_raw_generic.cpp.ejs:Fr_rawSubLS", "src/fr_raw_generic.cpp.ejs:Fr_rawNeg", "src/fr_raw_generic.cpp.ejs:Fr_rawNegLS", "src/fr_raw_generic.cpp.ejs:Fr_rawCopyS2L"]}
{"id": "C05", "title": "Generated constants fit the modulus", "statement": "For every odd modulus the generator emits constants with the meaning the runtime relies on: limb count is the least that holds q, R2 and R3 are 2^(128n) and 2^(192n) mod q, the Montgomery word satisfies np*q = -1 mod 2^64, half = floor(q/2), and the top-limb mask keeps exactly the bits below the bit length of q.", "quantifier": "every odd modulus greater than one", "why_tests_cant": "The constants are computed at generation time for an arbitrary user-supplied prime.", "anchors": ["src/buildzqfield.js:ZqBuilder", "src/fr.cpp.ejs"]}
{"id": "C06", "title": "Tagged addition", "statement": "Fr_add stores in the result an element denoting the sum of the two operands in Z/q, whatever mix of short, long, Montgomery and normal representations the operands use, with no other element changed.", "quantifier": "every modulus above 2^63, every store, every pair of well-formed operands in any of the four representations, and every placement of the result that does not overlap an operand needing conversion (see C15)", "why_tests_cant": "16 representation pairs times an unbounded operand space, with 32-bit overflow boundaries.", "anchors": ["src/fr_generic.cpp.ejs:Fr_add"]}
{"id": "C07", "title": "Tagged subtraction", "statement": "Fr_sub stores an element denoting the difference of the two operands in Z/q for every mix of representations, changing nothing else.", "quantifier": "as C06", "why_tests_cant": "As C06.", "anchors": ["src/fr_generic.cpp.ejs:Fr_sub"]}
{"id": "C08", "title": "Tagged multiplication and squaring", "statement": "Fr_mul and Fr_square store an element denoting the product in Z/q for every mix of representations and for every aliasing of result and operands.", "quantifier": "every modulus above 2^63, every store, every pair of operands, every aliasing", "why_tests_cant": "As C06; the correction factor (none or R3) depends on the representation pair.", "anchors": ["src/fr_generic.cpp.ejs:Fr_mul", "src/fr_generic.cpp.ejs:Fr_square"]}
{"id": "C09", "title": "Tagged negation", "statement": "Fr_neg stores an element denoting the additive inverse, including the most negative short value and zero, for every representation and in place.", "quantifier": "every modulus, store, operand and aliasing", "why_tests_cant": "Boundary -2^31 and zero in each representation, for all moduli.", "anchors": ["src/fr_generic.cpp.ejs:Fr_neg"]}
{"id": "C10", "title": "Equality agrees with the field", "statement": "Fr_eq returns one exactly when the operands denote the same residue, and Fr_neq is its negation, whatever the representations.", "quantifier": "every pair of well-formed operands", "why_tests_cant": "Equality must be exact on pairs of different representation of the same residue.", "anchors": ["src/fr_generic.cpp.ejs:Fr_eq", "src/fr_generic.cpp.ejs:Fr_neq"]}
{"id": "C11", "title": "Comparisons are one signed total order", "statement": "Fr_lt, Fr_gt, Fr_leq and Fr_geq order elements by the signed representative in (-q/2, q/2]; the four agree with each other, so the order is total, transitive and antisymmetric up to equality, for all representation mixes.", "quantifier": "every pair (and triple) of well-formed operands", "why_tests_cant": "Transitivity and consistency range over triples of the whole field.", "anchors": ["src/fr_generic.cpp.ejs:Fr_lt", "src/fr_generic.cpp.ejs:Fr_gt", "src/fr_generic.cpp.ejs:Fr_leq", "src/fr_generic.cpp.ejs:Fr_geq"]}
{"id": "C12", "title": "Logical operations", "statement": "Fr_isTrue is true exactly on nonzero residues; Fr_land, Fr_lor, Fr_lnot return short 0/1 with the Boolean meaning, in place or not.", "quantifier": "every operand, every aliasing", "why_tests_cant": "All representations of zero, over all moduli.", "anchors": ["src/fr_generic.cpp.ejs:Fr_isTrue", "src/fr_generic.cpp.ejs:Fr_land", "src/fr_generic.cpp.ejs:Fr_lor", "src/fr_generic.cpp.ejs:Fr_lnot"]}
{"id": "C13", "title": "Bitwise operations", "statement": "Fr_band, Fr_bor, Fr_bxor and Fr_bnot act on the canonical residues as bit strings of length bitlen(q), mask to that length and reduce once below q.", "quantifier": "every modulus above 2^63, every operand pair whose result location does not overlap an operand that needs conversion", "why_tests_cant": "Domain is all bit strings of the modulus length.", "anchors": ["src/fr_generic.cpp.ejs:Fr_band", "src/fr_generic.cpp.ejs:Fr_bor", "src/fr_generic.cpp.ejs:Fr_bxor", "src/fr_generic.cpp.ejs:Fr_bnot"]}
{"id": "C14", "title": "Shifts", "statement": "Fr_shl and Fr_shr shift the canonical residue by the amount when it is below bitlen(q), shift the other way by q-b when b is within bitlen(q) of q, and otherwise give zero; left shift masks to bitlen(q) bits and reduces.", "quantifier": "every operand and every shift amount of the field, every placement of the result except over a long normal operand shifted left by 64 bits or more", "why_tests_cant": "The amount is itself a field element with three regimes whose edges depend on q.", "anchors": ["src/fr_generic.cpp.ejs:Fr_shl", "src/fr_generic.cpp.ejs:Fr_shr"]}
{"id": "C15", "title": "In-place calls give the same answer as out-of-place calls", "statement": "Calling any two-operand tagged operation with the result stored over one of its operands leaves the same residue as storing it elsewhere.", "quantifier": "every operation, representation mix and aliasing pattern", "why_tests_cant": "The outcome depends on the memory layout chosen by the caller and the representation reached at run time.", "anchors": ["src/fr_generic.cpp.ejs:Fr_add", "src/fr_generic.cpp.ejs:Fr_sub", "src/fr_generic.cpp.ejs:Fr_band", "src/fr_generic.cpp.ejs:Fr_bor", "src/fr_generic.cpp.ejs:Fr_bxor", "src/fr_generic.cpp.ejs:Fr_bnot", "src/fr_generic.cpp.ejs:Fr_shl"]}
{"id": "C16", "title": "Representation conversions preserve the residue", "statement": "Fr_toNormal, Fr_toLongNormal and Fr_toMontgomery store an element denoting the same residue as their operand, in the announced representation, in place or into another element.", "quantifier": "every operand and every prior content of the destination", "why_tests_cant": "A stale field of the destination only matters for particular prior contents and later operations.", "anchors": ["src/fr_generic.cpp.ejs:Fr_toNormal", "src/fr_generic.cpp.ejs:Fr_toLongNormal", "src/fr_generic.cpp.ejs:Fr_toMontgomery"]}
{"id": "C17", "title": "Conversion to a machine integer is exact or reported", "statement": "Fr_toInt returns the signed representative when it fits in 32 bits and otherwise reports failure; it never returns a different integer.", "quantifier": "every element", "why_tests_cant": "The failing elements agree with q only in the lowest limb; random tests do not hit them.", "anchors": ["src/fr_generic.cpp.ejs:Fr_toInt"]}
{"id": "C18", "title": "Text and big-integer conversion round trips", "statement": "Fr_str2element followed by Fr_element2str returns the canonical decimal text of the number mod q, and converting an element to a big integer and back denotes the same residue.", "quantifier": "every element, every decimal string", "why_tests_cant": "Unbounded strings and the whole field.", "anchors": ["src/fr.cpp.ejs:Fr_str2element", "src/fr.cpp.ejs:Fr_element2str", "src/fr.cpp.ejs:Fr_toMpz", "src/fr.cpp.ejs:Fr_fromMpz"]}
{"id": "C19", "title": "Integer division, modulo, power, inverse and division", "statement": "Fr_idiv and Fr_mod return the quotient and remainder of canonical residues for nonzero divisor; Fr_pow returns a to the canonical residue of b; Fr_inv and Fr_div are multiplicative inverse and division for nonzero operands modulo a prime; results are well formed.", "quantifier": "every operand pair with the stated non-zero side condition", "why_tests_cant": "Whole field; inverse law must hold for every nonzero element.", "anchors": ["src/fr.cpp.ejs:Fr_idiv", "src/fr.cpp.ejs:Fr_mod", "src/fr.cpp.ejs:Fr_pow", "src/fr.cpp.ejs:Fr_inv", "src/fr.cpp.ejs:Fr_div"]}
{"id": "C20", "title": "Any straight-line computation refines Z/q", "statement": "Any finite sequence of tagged operations writing to fresh or non-overlapping elements, started from well-formed elements, leaves every element well formed and denoting the residue obtained by running the same sequence in Z/q.", "quantifier": "every finite program over the tagged operations and every well-formed initial store", "why_tests_cant": "Programs are unbounded and drive elements through arbitrary representation histories.", "anchors": ["src/fr_generic.cpp.ejs", "src/fr.cpp.ejs"]}
{"id": "C21", "title": "Class field operations refine Z/q", "statement": "The RawFr class methods add, sub, mul, square, neg, fromUI, set, isZero, eq compute the ring operations of Z/q on elements, and inv and div the field inverse and quotient for nonzero divisors when q is prime.", "quantifier": "every odd modulus, every element; for set every int not below -q", "why_tests_cant": "Whole field and all moduli.", "anchors": ["src/fr.cpp.ejs:RawFr", "src/fr.hpp.ejs:RawFr"]}
{"id": "C22", "title": "Field exponentiation", "statement": "RawFr exp returns base raised to the little-endian integer encoded by the scalar bytes, for every scalar length including zero, also when the result overwrites the base.", "quantifier": "every base, every byte string of at most 2^28 bytes (the bit counter is a 32-bit int)", "why_tests_cant": "Unbounded exponents.", "anchors": ["src/fr.cpp.ejs:RawFr::exp", "c/exp.hpp"]}
{"id": "C23", "title": "Big-endian byte serialisation round trip", "statement": "toRprBE writes the canonical residue as a full-width big-endian byte string and fromRprBE of those bytes returns the same element.", "quantifier": "every element and every prior buffer content", "why_tests_cant": "The failing element (zero) leaves the buffer untouched, so the outcome depends on prior memory.", "anchors": ["src/fr.cpp.ejs:RawFr::toRprBE", "src/fr.cpp.ejs:RawFr::fromRprBE"]}
{"id": "C24", "title": "Quadratic extension arithmetic", "statement": "F2Field add, sub, neg, mul, square, inv, div, mulScalar, conjugate implement the ring F[u]/(u^2-nr): multiplication for every non-residue nr, squaring equal to multiplication by itself, inverse for every element of nonzero norm, also in place.", "quantifier": "every base field, every nr, every element, every aliasing", "why_tests_cant": "Polynomial identities over all field elements and all nr.", "anchors": ["c/f2field.cpp"]}
{"id": "C25", "title": "Cubic extension arithmetic", "statement": "F6Field add, sub, neg, mul, square, inv, div, mulTau implement F2[t]/(t^3-xi), inverse correct for every nonzero element of the BN254 tower, also in place.", "quantifier": "every element, every aliasing", "why_tests_cant": "Inverse correctness on every nonzero element needs irreducibility, not samples.", "anchors": ["c/f6field.cpp"]}
{"id": "C26", "title": "Degree-12 extension arithmetic", "statement": "F12Field add, sub, mul, square, inv, div implement F6[w]/(w^2-t), inverse correct for every nonzero element of the BN254 tower, also in place.", "quantifier": "every element, every aliasing", "why_tests_cant": "As C25.", "anchors": ["c/f12field.cpp"]}
{"id": "C27", "title": "Frobenius maps", "statement": "F6 and F12 Frobenius return the p-th power and FrobeniusP2 the p^2-th power of their argument in the BN254 tower, with the constants in the source.", "quantifier": "every element of the tower", "why_tests_cant": "A 254-bit exponent identity on a 12-dimensional space.", "anchors": ["c/f6field.cpp:Frobenius", "c/f12field.cpp:Frobenius"]}
{"id": "C28", "title": "Extension field exponentiation", "statement": "F12Field exp returns a raised to the little-endian scalar, for every scalar length.", "quantifier": "every element, every byte string of at most 2^28 bytes (the bit counter is a 32-bit int), every aliasing", "why_tests_cant": "Unbounded exponents; fails when the result overwrites the base.", "anchors": ["c/f12field.cpp:exp"]}
{"id": "C29", "title": "Curve addition and doubling implement the group law", "statement": "Curve add, mixed add, affine add and both doublings return a representation of the group sum for all inputs on the curve: zero, equal, opposite, two-torsion and generic points, in every projective representation, for every coefficient a, and never leave the curve.", "quantifier": "every field of characteristic not two or three, every nonsingular curve without the point (0,0), every pair of points and every choice of representatives", "why_tests_cant": "Exceptional cases have probability about 1/q; associativity-level facts range over the whole curve.", "anchors": ["c/curve.cpp:add", "c/curve.cpp:dbl"]}
{"id": "C30", "title": "Curve negation and subtraction", "statement": "Curve neg and sub return the group inverse and difference for every input and representation, including zero.", "quantifier": "every point and representation", "why_tests_cant": "Zero in affine form is a single special input of one overload.", "anchors": ["c/curve.cpp:neg", "c/curve.hpp:sub"]}
{"id": "C31", "title": "Curve equality and zero test decide the group", "statement": "Curve isZero and eq (all overloads) answer exactly whether the represented group elements are zero / equal; eq is symmetric.", "quantifier": "every pair of points and every representation of each", "why_tests_cant": "Depends on which representation of zero an earlier computation happened to produce.", "anchors": ["c/curve.cpp:eq", "c/curve.cpp:isZero"]}
{"id": "C32", "title": "Curve operations are safe in place", "statement": "Curve add, dbl, neg, copy give the same point when the result object is one of the operands, for every aliasing pattern.", "quantifier": "every aliasing pattern and every operand", "why_tests_cant": "The function overwrites result coordinates before its last read of operand coordinates.", "anchors": ["c/curve.cpp"]}
{"id": "C33", "title": "Coordinate conversion preserves the point", "statement": "Copying between extended and affine representations preserves the group element in both directions, including zero; the affine result is canonical, so equal points give identical coordinates.", "quantifier": "every point and representation", "why_tests_cant": "All representatives of all points.", "anchors": ["c/curve.cpp:copy"]}
{"id": "C34", "title": "Signed-digit recoding is exact", "statement": "The recoding of a little-endian byte string into digits -1, 0, 1 has digit sum weighted by powers of two equal to the encoded integer, no two adjacent digits nonzero, and all digits beyond bit position 8*size+1 zero.", "quantifier": "every byte string of length at least one", "why_tests_cant": "2^(8*size) inputs of any length; carry chains of unbounded length.", "anchors": ["c/naf.cpp:buildNaf", "c/naf.cpp:buildNafTable"]}
{"id": "C35", "title": "Scalar multiplication", "statement": "mulByScalar returns the scalar multiple of the base point for the integer encoded by the scalar bytes, in any abelian group implemented by the curve, also in place.", "quantifier": "every base point, every byte string of at least one and fewer than 2^28 bytes (the digit counter is a 32-bit int)", "why_tests_cant": "Unbounded scalars.", "anchors": ["c/exp.hpp:nafMulByScalar", "c/curve.hpp:mulByScalar"]}
{"id": "C36", "title": "Multi-exponentiation is exact for every size and schedule", "statement": "multiMulByScalar returns the sum of scalar multiples for any number of points including zero and one, any scalar width from eight bytes to fewer than 2^28, any thread count and any assignment of loop iterations to threads.", "quantifier": "every input list, scalar width, thread count and schedule", "why_tests_cant": "Schedules are unbounded and chunk sizes depend on the number of points.", "anchors": ["c/multiexp.cpp:multiexp", "c/multiexp.cpp:processChunk", "c/multiexp.cpp:reduce", "c/multiexp.cpp:packThreads"]}
{"id": "C37", "title": "Strided multi-exponentiation honours its lengths", "statement": "The multi-exponentiation that takes nx interleaved vectors with a length each returns the sum over exactly the first size[k] points of each vector.", "quantifier": "every input, nx and length vector", "why_tests_cant": "Fails only when a length is zero or when there is a single point.", "anchors": ["c/multiexp.cpp:processChunk", "c/multiexp.cpp:multiexp"]}
{"id": "C38", "title": "Windowed signed multi-scalar multiplication is exact", "statement": "multiMulByScalarMSM returns the sum of scalar multiples for every number of points, scalar width, scalar values and thread count.", "quantifier": "every input list, scalar value, thread count", "why_tests_cant": "The dropped final carry needs the top window to overflow, which 254-bit scalars never do.", "anchors": ["c/msm.cpp:run", "c/msm.hpp"]}
{"id": "C39", "title": "The two multi-scalar algorithms agree", "statement": "On scalars below 2^(8*size-2), multiMulByScalar and multiMulByScalarMSM return the same group element for all inputs, thread counts and schedules.", "quantifier": "every input list within the range", "why_tests_cant": "Unbounded inputs.", "anchors": ["c/msm.cpp", "c/multiexp.cpp"]}
{"id": "C40", "title": "FFT constructor builds a full table of roots or refuses", "statement": "For every prime field and requested domain size the constructor either reports that the domain is too big, exactly when 2^k does not divide q-1, or ends with a table whose i-th entry is the i-th power of one primitive 2^s-th root of unity, for every thread count.", "quantifier": "every odd prime, every domain size, every thread count", "why_tests_cant": "The table split depends on the thread count, including more threads than entries.", "anchors": ["c/fft.cpp:FFT"]}
{"id": "C41", "title": "FFT computes the discrete Fourier transform", "statement": "fft on an array of n = 2^k elements, k at most the table order, stores at index i the value of the input polynomial at the i-th power of the primitive n-th root, for every thread count and interleaving.", "quantifier": "every field, every k, every input array, every thread count and schedule", "why_tests_cant": "Unbounded sizes and schedules.", "anchors": ["c/fft.cpp:fft", "c/fft.cpp:reversePermutation"]}
{"id": "C42", "title": "Inverse FFT undoes FFT", "statement": "ifft after fft returns the original array and fft after ifft too, for every supported size.", "quantifier": "every supported size and array", "why_tests_cant": "Fails at sizes one and two, where the parallel loop is empty.", "anchors": ["c/fft.cpp:ifft"]}
{"id": "C43", "title": "Bit reversal is an involutive permutation", "statement": "The index permutation used by the FFT reverses the k low bits of every index below 2^k for k at most 32, so it is an involution and the parallel swap visits each pair exactly once.", "quantifier": "every k up to 32 and every index", "why_tests_cant": "2^32 indices.", "anchors": ["c/fft.cpp:BR"]}
{"id": "C44", "title": "Parallel loops cover every index exactly once", "statement": "parallelFor over [begin,end) with begin<end calls the body on consecutive disjoint ranges that cover [begin,end) exactly, on at most as many threads as the pool has, with range sizes differing by at most one.", "quantifier": "every range whose length is a C int and every thread count below 2^31", "why_tests_cant": "All ranges and thread counts.", "anchors": ["c/misc.hpp:parallelFor", "c/misc.cpp:divideWork"]}
{"id": "C45", "title": "A waited-for task has run exactly once", "statement": "When wait returns after submit, the submitted task has been executed exactly once by the worker, and its effects are visible, under every interleaving and spurious wake-up.", "quantifier": "every schedule and every number of submit/wait rounds", "why_tests_cant": "Interleavings are unbounded.", "anchors": ["c/misc.hpp:ThreadWorker", "c/misc.cpp:ThreadWorker"]}
{"id": "C46", "title": "Destroying a thread pool terminates", "statement": "Destroying an idle worker always ends: no schedule leaves the destructor waiting for ever.", "quantifier": "every schedule", "why_tests_cant": "A lost wake-up needs one particular interleaving of a few instructions.", "anchors": ["c/misc.cpp:ThreadWorker::~ThreadWorker"]}
{"id": "C47", "title": "Integer logarithm", "statement": "log2 returns the floor of the base-two logarithm of every nonzero 32-bit number, and the FFT's own log2 does so for every nonzero 64-bit number.", "quantifier": "every 32-bit / 64-bit number", "why_tests_cant": "2^32 and 2^64 inputs.", "anchors": ["c/misc.cpp:log2", "c/fft.cpp:log2"]}
{"id": "C48", "title": "Parenthesised list splitting", "statement": "splitParStr returns the top-level comma-separated components of a parenthesised string with outer parentheses and surrounding blanks removed, and always returns.", "quantifier": "every string", "why_tests_cant": "Non-termination on inputs without a top-level comma is invisible to tests that only use well-formed tuples.", "anchors": ["c/splitparstr.cpp:splitParStr"]}
{"id": "C49", "title": "Tower element text round trip", "statement": "fromString of toString returns the same F2, F6 and F12 element.", "quantifier": "every element", "why_tests_cant": "Unbounded strings through a recursive parser.", "anchors": ["c/f2field.cpp:toString", "c/f6field.cpp:toString", "c/f12field.cpp:toString", "c/splitparstr.cpp"]}
{"id": "C50", "title": "Binary container parsing", "statement": "Opening a file that was laid out as header, version and a list of typed sections yields exactly those sections, by type and in order, with their exact bytes; files with another type or a newer version are refused.", "quantifier": "every list of sections with any types (repeated too) and any contents", "why_tests_cant": "Unbounded files.", "anchors": ["c/binfile_utils.cpp:BinFile"]}
{"id": "C51", "title": "Section reading protocol", "statement": "A section can be opened only if it exists and no other is being read; reads return consecutive bytes; closing with check succeeds exactly when the bytes consumed equal the section size; a refused call leaves the reader unchanged.", "quantifier": "every sequence of calls, with reads of any length", "why_tests_cant": "Histories of calls are unbounded.", "anchors": ["c/binfile_utils.cpp:startReadSection", "c/binfile_utils.cpp:endReadSection", "c/binfile_utils.cpp:read"]}
{"id": "C52", "title": "Witness header parsing", "statement": "Loading the header of a well-formed witness file returns the encoded field size, prime and witness count and leaves the reader idle.", "quantifier": "every prime, size and count", "why_tests_cant": "Unbounded files.", "anchors": ["c/wtns_utils.cpp:loadHeader"]}
{"id": "C53", "title": "Proving-key header parsing", "statement": "Loading the header of a well-formed groth16 key returns the encoded sizes, primes, counts, verification points and coefficient count and leaves the reader idle; any other protocol is refused.", "quantifier": "every well-formed key file", "why_tests_cant": "Unbounded files.", "anchors": ["c/zkey_utils.cpp:loadHeader"]}
{"id": "C54", "title": "x86 raw routines", "statement": "The generated x86-64 code of raw add, subtract, negate (long/long and long/short), copy and comparison computes the same values as the portable code for every limb count, and raw swap exchanges its two operands.", "quantifier": "every limb count, operand and aliasing", "why_tests_cant": "Generated code differs for every limb count; swap stores an unrelated register.", "anchors": ["src/add.asm.ejs", "src/sub.asm.ejs", "src/neg.asm.ejs", "src/copy.asm.ejs"]}
{"id": "C55", "title": "x86 Montgomery generator", "statement": "For every limb count and odd modulus the straight-line mulx/adcx/adox code emitted by the Montgomery builder returns the reduced Montgomery product, and so do the square, one-word and from-Montgomery variants.", "quantifier": "every limb count, modulus and operands", "why_tests_cant": "The generator emits different code for each limb count and the two carry chains interleave.", "anchors": ["src/montgomerybuilder.js", "src/montgomery.asm.ejs", "src/asmbuilder.js"]}
{"id": "C56", "title": "Raw routines write over their operands", "statement": "Every raw routine and class operation (add, subtract, negate, Montgomery product, square, conversions, bitwise operations, right shift, swap) returns the same value whether or not its result array is one of its operand arrays, and changes no other array.", "quantifier": "every modulus, operand, and coincidence of result and operand arrays", "why_tests_cant": "Aliasing combinations times operand values are unbounded; the long-minus-short negation and the left shift by 64 or more bits break it.", "anchors": ["src/fr_raw_generic.cpp.ejs", "src/fr.hpp.ejs:RawFr"]}
{"id": "C57", "title": "FFT and table construction are free of data races", "statement": "While the FFT object is built and while fft, ifft or the bit-reversal permutation run, no two threads ever access the same array element at the same time with one of them writing.", "quantifier": "every table size, transform size up to 2^30, thread count and schedule", "why_tests_cant": "Races depend on the ratio of table size to thread count and need a particular interleaving; one is present when there is one root per thread.", "anchors": ["c/fft.cpp:FFT", "c/fft.cpp:fft", "c/fft.cpp:ifft", "c/fft.cpp:reversePermutation"]}
{"id": "C58", "title": "Parallel loops on the pool return with every index handled once", "statement": "A parallel loop run by an idle pool always returns, whatever the order in which the threads run and wake up; when it returns, every index of the range has been handled exactly once, each worker used has run exactly one task, and the pool is idle again, so loops can be run one after the other.", "quantifier": "every thread count below 2^31, every range whose length is a C int, every loop body, schedule and pattern of spurious wake-ups", "why_tests_cant": "A lost wake-up or a task run twice needs one particular interleaving of mutex, condition variable and task-slot operations; tests see only the common ones.", "anchors": ["c/misc.hpp:ThreadWorker", "c/misc.hpp:ThreadPool::parallelFor", "c/misc.hpp:ThreadPool::parallelBlock"]}
{"id": "C59", "title": "Malformed container files are refused", "statement": "Opening a file that does not follow the container layout (another type, a newer version, a truncated header, sections that do not fit in the file) is refused, without reading outside the file.", "quantifier": "every byte string", "why_tests_cant": "Corrupt files are unbounded in variety; the failing ones read outside the buffer, which a test may not notice.", "anchors": ["c/binfile_utils.cpp:BinFile"]}
{"id": "C60", "title": "Multi-exponentiation is race-free and independent of the interleaving", "statement": "The plain and the interleaved-vector multi-exponentiation and the windowed multi-scalar multiplication have no data race, and return the same sum whatever way the iterations of their parallel loops are handed to the threads and however the threads' accesses interleave.", "quantifier": "every number of points and threads, every assignment of iterations to threads, every interleaving of loads and stores, every initial content of the work arrays", "why_tests_cant": "Tests sample a few schedules; a race shows only under one particular interleaving.", "anchors": ["c/multiexp.cpp:multiexp", "c/multiexp.cpp:processChunk", "c/multiexp.cpp:packThreads", "c/multiexp.cpp:reduce", "c/msm.cpp:run"]}
{"id": "C61", "title": "x86 tagged arithmetic", "statement": "On the x86-64 backend, add, subtract, multiply, square and negate leave in the result element the sum, difference, product, square or negation of the residues the operands denote, whatever representation (short, long, Montgomery) each is in, also when the result is one of the operands, change no other memory, keep the callee-saved registers and return.", "quantifier": "every modulus, every machine state with valid tables and stack, every operand in every representation, every coincidence of result and operands", "why_tests_cant": "The assembly dispatches over sixteen representation pairs with hand-written register conventions and in-place conversions; one wrong pair or one clobbered register shows only for that pair.", "anchors": ["src/add.asm.ejs", "src/sub.asm.ejs", "src/mul.asm.ejs", "src/neg.asm.ejs"]}
{"id": "C62", "title": "The assembly and the portable backend agree", "statement": "Add, subtract, multiply, square, negate, the conversions, comparisons, logical and bitwise operations and shifts leave exactly the same element (tag, small value and limbs) on the x86-64 backend as on the portable C++ backend.", "quantifier": "every modulus and memory content, including invalid elements, every coincidence of result and operands", "why_tests_cant": "The two implementations are written independently; agreement on samples says nothing about the remaining representation pairs and word values.", "anchors": ["src/add.asm.ejs", "src/sub.asm.ejs", "src/mul.asm.ejs", "src/neg.asm.ejs", "src/fr_generic.cpp.ejs", "src/montgomery.asm.ejs:toMontgomery"]}
{"id": "C63", "title": "x86 conversions keep the residue", "statement": "On the x86-64 backend, converting an element to normal, long normal or Montgomery form leaves an element of that form that denotes the same residue, changes no other memory, keeps the callee-saved registers and returns.", "quantifier": "every modulus, every machine state with valid tables and stack, every operand in every representation", "why_tests_cant": "A stale small value or a wrong tag is noticed only by a later operation that reads it.", "anchors": ["src/montgomery.asm.ejs:toMontgomery", "src/montgomery.asm.ejs:toNormal", "src/montgomery.asm.ejs:toLongNormal"]}
{"id": "C64", "title": "x86 comparisons decide the order of the residues", "statement": "On the x86-64 backend the six comparisons leave 1 in the result element when the relation holds between the operands and 0 when not (equality of residues; order of the signed representatives), whatever the representation of each operand and also in place; the variants that return the truth value return it without touching the result element.  No other memory changes and the callee-saved registers are kept.", "quantifier": "every modulus, every machine state with valid tables and stack, every operand in every representation, every coincidence of result and operands", "why_tests_cant": "Comparisons dispatch over all representation pairs and convert operands on the stack; a wrong boundary at half the modulus shows only for operands next to it.", "anchors": ["src/cmpops.asm.ejs"]}
{"id": "C65", "title": "x86 logical operations follow the truth of the residues", "statement": "On the x86-64 backend logical and, or and not leave 1 or 0 in the result element according to which operands denote a non-zero residue, and isTrue returns it, whatever the representations and also in place, and change no other memory.", "quantifier": "every modulus, every machine state with valid stack, every operand in every representation", "why_tests_cant": "The truth test loops over the limbs of long operands only; a missed limb shows only for residues whose other limbs are zero.", "anchors": ["src/logicalops.asm.ejs"]}
{"id": "C66", "title": "x86 bitwise operations act on the canonical residues", "statement": "On the x86-64 backend bitwise and, or, xor and complement leave the result of the operation on the canonical residues, cut to the bit length of the modulus and reduced, whatever the representations, also when the result is one of the operands, and change no other memory.", "quantifier": "every modulus, every machine state with valid tables and stack, every operand in every representation, every coincidence of result and operands", "why_tests_cant": "Sixteen representation pairs with their own conversions and masks; the failing in-place pairs give a valid but wrong element.", "anchors": ["src/binops.asm.ejs"]}
{"id": "C67", "title": "x86 shifts shift by a residue", "statement": "On the x86-64 backend the raw shifts multiply or divide a limb array by a power of two (within the bit length of the modulus, zero from there on), and the tagged shifts leave the first operand's canonical residue shifted by the second: by its value when that is below the bit length, the other way by the distance to the modulus when that is, zero otherwise; whatever the representations, also when the result is one of the operands.  No other memory changes.", "quantifier": "every modulus of fewer than 2^31 bits, every machine state with valid tables and stack, every operand in every representation, every coincidence of result and operands", "why_tests_cant": "The shift counts range over the field; the limb-crossing, aligned, reversed and out-of-range counts each take their own path through code with repeated local labels and fall-through.", "anchors": ["src/binops.asm.ejs", "src/utils.asm.ejs"]}
{"id": "C68", "title": "x86 toInt returns the value or ends the program", "statement": "On the x86-64 backend the conversion of an element to a machine integer returns the signed representative of its residue when that fits 32 bits, whatever the representation, and ends the program through the failure handler when not; no memory outside the stack changes and the callee-saved registers are kept.", "quantifier": "every modulus, every machine state with valid tables and stack, every element in every representation", "why_tests_cant": "The answer depends on a chain of borrows over all limbs; elements that are answered wrongly agree with a small negative value in one limb only.", "anchors": ["src/copy.asm.ejs:toInt", "src/utils.asm.ejs:fromMont_r"]}
{"id": "C69", "title": "ARM64 raw routines equal the portable ones", "statement": "On the ARM64 backend the raw addition, subtraction, negation, mixed long/short forms, copy, swap, comparison, zero and equality tests and bitwise operations leave exactly the limbs (or the answer) of the portable routines for every operand, hence the residue of the operation on reduced operands; they write nothing but the result array and the words below the stack pointer, and keep x19 to x30 and the stack pointer.", "quantifier": "every modulus of at most twelve limbs (the generator's limit), every content of registers, flags and memory, operand arrays equal to, overlapping or apart from the result", "why_tests_cant": "The generated instruction sequence and its register assignment are different for every limb count; carries that are lost show only for rare operands and the tests cover four limbs.", "anchors": ["src/armbuilder.js", "src/fr_raw_arm64.s.ejs"]}
{"id": "C70", "title": "ARM64 Montgomery routines are exact", "statement": "On the ARM64 backend the Montgomery product of any limb array with a reduced one, the product of a reduced array by a word and the conversion of any array out of Montgomery form leave exactly the limbs of the portable routines: the reduced r with r*2^(64n) congruent to the product.  They write nothing but the result array and the words below the stack pointer and keep x19 to x30 and the stack pointer, also when operands overlap the result.", "quantifier": "every odd modulus of at most twelve limbs, both printed variants, every content of registers, flags and memory, every operand", "why_tests_cant": "Each limb count has its own unrolled code of up to a thousand instructions with recycled registers; a dropped carry between rounds occurs for a vanishing fraction of operands.", "anchors": ["src/armbuilder.js:Gen_rawMul", "src/armbuilder.js:Gen_rawMul1"]}
{"id": "C71", "title": "ARM64 raw shifts equal the portable ones", "statement": "On the ARM64 backend the raw right shift divides a limb array by 2^count and the raw left shift multiplies it by 2^count, cut to the bit length of the modulus and reduced, leaving exactly the limbs of the portable routines; they write nothing but the result array and the words below the stack pointer and keep x19 to x30 and the stack pointer.", "quantifier": "every modulus of at most twelve limbs, every count below 64 times the number of limbs, every content of registers, flags and memory, operand arrays equal to, overlapping or apart from the result", "why_tests_cant": "Every word count has its own block behind a jump table and every limb count its own registers: hundreds of paths, and the loss of a single bit between words shows only for some operands.", "anchors": ["src/armbuilder.js:Gen_rawShr", "src/armbuilder.js:Gen_rawShl"]}
{"id": "C72", "title": "Curve arithmetic is right on the field's own arrays", "statement": "Run on coordinates that are the limb arrays of the field class (or pairs of them for the quadratic extension), point addition, doubling, negation, subtraction, tests, conversions, scalar multiplication and both multi-exponentiation algorithms give arrays that stand for the group operation on the points the operands stand for, in every placement; equal points have the same affine arrays.", "quantifier": "every odd prime modulus, every curve y^2 = x^3 + ax + b with b not zero, every point in every projective representation, every scalar of fewer than 2^28 bytes, every number of threads and schedule", "why_tests_cant": "Each layer can be right against its own idea of the layer below; only a statement through all layers excludes a mismatch, and it ranges over all points, representations and schedules.", "anchors": ["c/curve.cpp", "c/f2field.cpp", "src/fr.cpp.ejs:RawFr"]}
{"id": "C73", "title": "The built-in BN254 groups have order r", "statement": "The texts from which the library builds its two curves are read as the coefficients 0, 3 and 0, 3/(9+u) and as points on them; the first group has exactly r points, all of them multiples of the generator, the second generator has order exactly r; so scalar multiplication gives the same point for scalars equal modulo r and zero for multiples of r, and for scalars below r the two multi-exponentiation algorithms return the same affine point, the sum.", "quantifier": "every point of the first curve, every point of order r of the second, every scalar of fewer than 2^28 bytes, every number of threads and schedule", "why_tests_cant": "The group has about 2^254 elements.", "anchors": ["c/alt_bn128.cpp", "c/alt_bn128.hpp", "c/curve.cpp", "c/multiexp.cpp", "c/msm.cpp"]}
{"id": "C74", "title": "The FFT is right on the field's own arrays", "statement": "An FFT object built over the limb arrays of the field class reports an error exactly when the requested order does not divide q-1 and otherwise holds the powers of a primitive root of unity; its forward transform leaves the arrays of the polynomial's values at those powers, its inverse transform restores every limb, and cells behind the transformed range keep their limbs.", "quantifier": "every odd prime modulus, every requested size, every number of threads and schedule, every transform size up to 2^30, every content of the array", "why_tests_cant": "Transform, field routines and GMP conversions are tested separately and on a few small sizes; the agreement through all layers ranges over all contents, sizes and schedules.", "anchors": ["c/fft.cpp", "src/fr.cpp.ejs:RawFr"]}
{"id": "C75", "title": "Polynomial multiplication by FFT is exact", "statement": "Transforming two coefficient arrays, multiplying the cells in pairs with the field class and transforming back leaves the coefficients of the product of the two polynomials.", "quantifier": "every odd prime modulus, every FFT object the constructor returns, all polynomials whose product has degree below the size, every schedule of every transform", "why_tests_cant": "The product ranges over all polynomials of up to 2^30 coefficients.", "anchors": ["c/fft.cpp", "src/fr.cpp.ejs:RawFr"]}
{"id": "C76", "title": "The field library is right on ARM64", "statement": "On ARM64, where the raw routines come from the ARM64 generator, every operation on field elements (conversions, arithmetic, comparisons, logical, bitwise and shift operations, toInt) leaves an element standing for the specified residue, for elements in any representation, and a program of such calls computes what the same program computes on residues.", "quantifier": "every odd modulus of up to twelve limbs, all operands in every representation, every allowed placement of the result, programs of any length", "why_tests_cant": "The ARM64 routines are generated per limb count and take other instruction sequences than the portable ones; their agreement ranges over all operands and limb counts, and the wrong answers sit in combinations of representations.", "anchors": ["src/fr_generic.cpp.ejs", "src/fr_raw_arm64.s.ejs", "src/armbuilder.js", "src/fr.hpp.ejs"]}
{"id": "C77", "title": "The raw field class computes the same residues in every build", "statement": "Linked with the x86-64 routines, the ARM64 routines or the portable ones, the class of reduced field elements gives for every operation (sum, difference, product, square, negation, also with a C int on either side, product by a word, constants, conversion from int, unsigned long, text and bytes and back, inverse, quotient, power, equality and zero test) an array standing for the specified residue, hence the same array in every build and for every placement of the operands; so the curve, multi-exponentiation and FFT code gives the same arrays in every build.", "quantifier": "every odd modulus (ARM64: up to twelve limbs), every element, int, text and byte string, every power given by at most 2^28 bytes", "why_tests_cant": "Tests run one build on one machine for the moduli at hand; the agreement ranges over all limb counts and all operands, and each limb count has its own generated code.", "anchors": ["src/fr.cpp.ejs", "src/fr.hpp.ejs", "src/fr.asm.ejs", "src/montgomerybuilder.js", "src/fr_raw_arm64.s.ejs", "src/fr_raw_generic.cpp.ejs"]}
{"id": "C78", "title": "Copying an array of elements copies every element and nothing else", "statement": "The array copy leaves in the i-th place of the result the i-th element of the source, in its representation, for every i below the given count, and changes no other memory; onto itself it changes nothing; callee-saved registers are kept.", "quantifier": "every number of limbs, every count that fits the address space, every placement of the arrays the routine can serve (the same, apart, or the result below the source), every content of memory and registers", "why_tests_cant": "The result depends on the count, on the overlap and on register contents the caller does not control.", "anchors": ["src/copy.asm.ejs:copyn", "src/fr_generic.cpp.ejs:copyn", "src/fr.hpp.ejs"]}
{"id": "C79", "title": "A program of tagged calls on x86-64 computes the program on residues", "statement": "A caller that keeps its field elements, the library's constants and its stack apart, and that calls the x86-64 routines one after the other with any of its elements, gets from every call a normal return with the stack pointer restored and finally has in every element the residue that the same sequence of operations computes on residues; the library's constants are never changed.  Registers, flags and other memory may hold anything before each call.", "quantifier": "every odd modulus for which the called routines are right, programs of any length over any number of elements in any representation, every placement in memory, every content of the other registers and memory before every call", "why_tests_cant": "A routine that leaks into a register, a neighbouring element or the stack fails only in the right combination of calls; the combinations are unbounded.", "anchors": ["src/fr.asm.ejs", "src/add.asm.ejs", "src/sub.asm.ejs", "src/mul.asm.ejs", "src/neg.asm.ejs", "src/cmpops.asm.ejs", "src/logicalops.asm.ejs", "src/binops.asm.ejs", "src/copy.asm.ejs"]}
{"id": "C80", "title": "The FFT run by the thread pool always returns with the transform", "statement": "Run on an idle pool whose worker threads follow the submit/wait protocol, building the root table, the forward transform and the inverse transform always return, whatever the order in which the threads run and wake up; when they return the table holds the powers of the root, the array holds the values of the polynomial, forward followed by inverse (in either order) restores every limb, and the pool is idle again.", "quantifier": "every odd prime modulus, every FFT object the constructor returns, every transform size up to 2^30, every thread count below 2^31, every idle state of the pool, every interleaving of the atomic steps of caller and workers, spurious wake-ups included", "why_tests_cant": "The transform, the loop splitting and the synchronisation can each be right against an idealised model of the others; a lost wake-up or a stage that starts before the previous one has ended shows only under particular interleavings.", "anchors": ["c/fft.cpp:FFT", "c/fft.cpp:fft", "c/fft.cpp:ifft", "c/fft.cpp:reversePermutation", "c/misc.hpp:ThreadPool", "c/misc.hpp:ThreadWorker"]}
{"id": "C81", "title": "The extension tower of BN254 is right on the field's own arrays", "statement": "With the elements of the base field kept as limb arrays by the raw field class, every operation of the quadratic, sextic and degree-twelve classes (sum, difference, negation, doubling, product, square, inverse, quotient, products by smaller elements, conjugation, Frobenius, squared Frobenius, power, comparisons) leaves arrays standing for the specified element of the tower of fields, in any placement of result and operands; the constants are those the texts in the constructors denote, and raising to the power q leaves the same limbs as the Frobenius operation.", "quantifier": "all elements of the three classes over the BN254 base field, every placement of the result, every scalar of at most 2^28 bytes", "why_tests_cant": "A wrong digit in one constant, a carry lost in the base field or a temporary overwritten too early shows only for particular elements among q^12; tests try a few.", "anchors": ["c/f2field.cpp", "c/f6field.cpp", "c/f12field.cpp", "src/fr.cpp.ejs:RawFr"]}
{"id": "C82", "title": "The multi-scalar multiplication run by the thread pool always returns with the sum", "statement": "Run on an idle pool whose worker threads follow the submit/wait protocol, the windowed multi-scalar multiplication always returns, whatever the order in which the threads run and wake up and whatever the scratch memory held; the result stands for the sum of the multiples, and the pool is idle again.", "quantifier": "every group implementation that computes the group law (in particular both BN254 groups on limb arrays), every number of points below 2^31, every scalar size from 8 to 2^28 bytes, every thread count below 2^31, every idle state of the pool, every interleaving of the atomic steps of caller and workers, spurious wake-ups included", "why_tests_cant": "The digits are written by one set of threads and read by another; a second loop that starts before the first has ended, or two threads that share buckets, shows only under particular interleavings.", "anchors": ["c/msm.cpp:MSM::run", "c/msm.hpp", "c/misc.hpp:ThreadPool", "c/misc.hpp:ThreadWorker"]}
{"id": "C83", "title": "The raw x86-64 routines touch no memory but their operands", "statement": "Whatever the operands hold, however they overlap and whichever branches are taken, the raw x86-64 routines (copy, zero, swap, short to long, addition, subtraction, negation, equality and zero test, the Montgomery product, square, product by a word and both conversions, the shifts, the array copy) read only words of their operands, of the result, of the tables of the modulus and of their own stack frame, and write only words of the result and of the stack frame below the return address; what they leave depends on nothing else in memory.", "quantifier": "every number of limbs, both variants of the Montgomery code, every machine state (all addresses, contents, shift counts and element counts), every path", "why_tests_cant": "A read one word beyond an array is invisible to a test unless the page ends there, and an access that depends on the operand happens for some contents only.", "anchors": ["src/fr.asm.ejs", "src/copy.asm.ejs", "src/add.asm.ejs", "src/sub.asm.ejs", "src/neg.asm.ejs", "src/binops.asm.ejs", "src/cmpops.asm.ejs", "src/montgomery.asm.ejs", "src/montgomerybuilder.js", "src/asmbuilder.js"]}
{"id": "C84", "title": "The raw ARM64 routines touch no memory but their operands", "statement": "Whatever the operands hold, however they overlap and whichever branches are taken, the raw ARM64 routines (tests, comparison, copy, swap, short to long, addition, subtraction, negation, bitwise operations, shifts, Montgomery product, product by a word and conversion) read only words of their operands, of the tables of the modulus and of their stack frame of at most 128 bytes, and write only words of the result and of the frame; what they leave depends on nothing else in memory.", "quantifier": "every number of limbs from 1 to 12 (the generator's limit), both variants of the Montgomery code, every machine state, every path", "why_tests_cant": "A read one word beyond an array is invisible to a test unless the page ends there, and pairs of words are loaded together, so that odd widths differ from even ones.", "anchors": ["src/armbuilder.js", "src/fr_raw_arm64.s.ejs"]}
{"id": "C85", "title": "The tagged x86-64 routines touch no memory but their operands and keep the calling convention", "statement": "Whatever representation the operands have, whatever they hold, however they overlap and whichever branches are taken, the x86-64 routines on field elements (conversions, addition, subtraction, negation, product, square, comparisons, logical and bitwise operations, shifts, toInt), with all the routines they call, read only words of their operand elements, of the result element, of the tables of the modulus and of a stack frame of a fixed number of words, and write only words of the result element and of the frame.  A routine that returns has popped its return address, has restored the callee-saved registers and has changed no other memory; what it leaves depends on nothing else in memory.", "quantifier": "every modulus (shifts: of at most 2^54 limbs), every machine state whose result element is outside the stack frame, every path, also for the operands on which the value computed is wrong", "why_tests_cant": "A read one word beyond an element, a register left unrestored on one of several dozen branches or a temporary one word too small shows only for particular representations and contents of the neighbouring memory.", "anchors": ["src/add.asm.ejs", "src/sub.asm.ejs", "src/neg.asm.ejs", "src/mul.asm.ejs", "src/montgomery.asm.ejs", "src/cmpops.asm.ejs", "src/logicalops.asm.ejs", "src/binops.asm.ejs", "src/copy.asm.ejs", "src/utils.asm.ejs"]}
{"id": "C86", "title": "The FFT, scalar multiplication and multi-exponentiations stay inside their arrays", "statement": "The FFT constructor, fft and ifft, the bit-reversal pass (which runs before the length is checked), the signed-digit recoding behind mulByScalar and exp, both multi-exponentiations and the windowed MSM never read or write an element outside the caller's arrays (n elements, n bases, n*scalarSize scalar bytes, nx lengths), their tables and the arrays they allocate, whatever the thread count, the distribution of the iterations and the interleaving: elements beyond the arrays keep their values, and the possible results do not depend on them.", "quantifier": "every length, thread count, distribution of iterations over threads, scalar size, contents of the arrays and of the memory around them", "why_tests_cant": "An access one element beyond an array is invisible to a test unless the page ends there, and the indices depend on thread numbers, scalar digits and a wrap-around of unsigned differences.", "anchors": ["c/fft.cpp: reversePermutation, fft, ifft, FFT", "c/fft.hpp: root", "c/naf.cpp: buildNaf", "c/exp.hpp", "c/multiexp.cpp: getChunk, processChunk, packThreads, reduce, multiexp", "c/msm.hpp: getBucketIndex", "c/msm.cpp: run"]}
{"id": "C87", "title": "Windowed MSM with a configured window width", "statement": "In a build with the window width of the multi-scalar multiplication fixed by MSM_BITS_PER_CHUNK, MSM::run returns the sum of scalar times point, the same element as with every other width and with the width chosen at run time; its loops have no data race and stay inside their arrays.", "quantifier": "every configured width, every points and scalars, every scalar size, every thread count, assignment of iterations and interleaving", "why_tests_cant": "The width is a build option: each value is another program, and the carry that leaves the last window depends on the width and on the top bits of the scalar.", "anchors": ["c/msm.cpp: run, MSM_BITS_PER_CHUNK", "c/msm.hpp: getBucketIndex, calcChunkCount, calcBucketCount"]}
{"id": "C88", "title": "Field routines may be called from several threads at the same time", "statement": "Any number of threads that call routines of the field library at the same time, the same one or different ones, on one memory, with elements and tables of the modulus that they may share for reading, do not disturb each other as long as no thread writes (its result, its part of the stack) what another one uses: at no moment do the next instructions of two threads access a cell that one of them writes, no thread gets stuck, every schedule of the single instructions ends after the same number of instructions, and each thread returns with the registers and leaves the result it would have left alone.", "quantifier": "every number of threads, every choice of routines (x86-64: all; ARM64: the raw routines) in calls that return when made alone, every modulus, every machine states and every schedule of the instructions (sequentially consistent memory)", "why_tests_cant": "A routine with hidden static storage, or a callee that spills outside its own stack, goes wrong only when another thread is scheduled between two particular instructions.", "anchors": ["src/fr.asm.ejs", "src/add.asm.ejs", "src/mul.asm.ejs", "src/montgomerybuilder.js: buildMul", "src/utils.asm.ejs", "src/fr_raw_arm64.s.ejs"]}
{"id": "C89", "title": "Programs of field calls on several threads leave what each computes on residues", "statement": "Any number of x86-64 threads, each running a sequence of calls of the tagged field library (copy, conversions, arithmetic, comparisons, logical and bitwise operations, shifts) on elements in shared memory, always come to an end, after the same total number of instructions, without a data race, whatever the schedule, as long as an element that one thread sets is not named by another one; then every element holds the value that the sequence of the thread that sets it computes on residues, and elements that nobody sets represent their value all the time.", "quantifier": "every modulus, number of threads, sequences of calls of any length, elements in any representation, placement in memory and schedule of the instructions of the sequences and of the library (sequentially consistent memory)", "why_tests_cant": "The number of schedules grows exponentially with the number of instructions, and each call runs different branches depending on the representation of what earlier calls left.", "anchors": ["src/fr.hpp.ejs", "src/fr.asm.ejs", "src/add.asm.ejs", "src/mul.asm.ejs", "src/cmpops.asm.ejs", "src/binops.asm.ejs", "src/logicalops.asm.ejs"]}
{"id": "C90", "title": "Delayed stores do not disturb field routines on several threads", "statement": "On x86-64, where a store is seen by other threads only later and in the meantime only by its own thread, any number of threads that call routines of the field library, or run sequences of calls of it, without one setting what another uses, behave as each does alone: no thread gets stuck, all return after the same number of instructions, no two conflicting accesses happen together, a thread sees its right result when its call returns, and every thread sees it once the store buffer has drained.", "quantifier": "every number of threads, every choice of routines and sequences of calls, every modulus, all machine states, every schedule of instructions and every time at which buffered stores reach the memory", "why_tests_cant": "The delays are up to the processor and cannot be forced or enumerated by a test; outcomes exist that no interleaving of the instructions explains.", "anchors": ["src/fr.asm.ejs", "src/add.asm.ejs", "src/mul.asm.ejs", "src/montgomerybuilder.js: buildMul", "src/cmpops.asm.ejs", "src/binops.asm.ejs", "src/copy.asm.ejs"]}
{"id": "C91", "title": "Sequences of raw field operations on several threads compute limb for limb what each computes alone", "statement": "Any number of x86-64 threads, each running a sequence of operations of the raw field class (addition, subtraction, negation, Montgomery product and square, copy, zero) on arrays of limbs below the modulus in shared memory, always come to an end, after the same total number of instructions, without a data race, as long as an array that one thread sets is not used by another one; then every array holds, limb for limb, what the sequence of the thread that sets it computes in the field; arrays that nobody sets and the tables of the modulus are never changed.  Results may be placed on operands, and an array that is set before it is read may hold anything at the start.  The same holds with delayed stores.", "quantifier": "every odd prime modulus with any number of limbs, both variants of the Montgomery code, every number of threads, sequences of any length, all arrays of limbs below the modulus, every placement in memory, every schedule of the instructions and every time at which stores reach the memory", "why_tests_cant": "The number of schedules grows exponentially with the number of instructions; a routine that spilled outside its stack or read its result before the operands were complete would go wrong only under particular ones.", "anchors": ["src/fr.hpp.ejs: Raw class add sub mul neg square copy", "src/fr.asm.ejs", "src/add.asm.ejs", "src/sub.asm.ejs", "src/neg.asm.ejs", "src/copy.asm.ejs", "src/montgomerybuilder.js"]}
{"id": "C92", "title": "The Fourier transform computes the right limbs whatever the order of the instructions of its threads", "statement": "For every object that the constructor of the FFT class returns, and an array of raw field elements in memory whose size is a power of two up to that of the object: fft on any number of x86-64 threads comes to an end, and every order of the machine instructions of its threads, with every delay of their stores, leaves in cell i the limbs of the value at the i-th power of a primitive root of unity of the polynomial whose coefficients were in the array; the tables of the object are not changed.  ifft after fft, and fft after ifft, restore every limb (for at least four cells).", "quantifier": "every odd prime modulus, both variants of the Montgomery code, all array contents, all sizes up to 2^30 and tables, every number of threads, every placement in memory, every schedule of the instructions and every time at which stores reach the memory", "why_tests_cant": "A transform of a million cells executes billions of instructions on several cores; their interleavings cannot be tried, and an overlap of the parts of two threads shows up only in some of them.", "anchors": ["c/fft.cpp: fft, ifft, reversePermutation", "c/fft.hpp: root", "c/misc.hpp: parallelFor", "src/montgomerybuilder.js", "src/add.asm.ejs", "src/sub.asm.ejs", "src/copy.asm.ejs"]}
{"id": "C93", "title": "Polynomials multiplied with the transform come out right whatever the order of the instructions of the threads", "statement": "For every object that the constructor of the FFT class returns and two arrays of raw field elements in memory with the coefficients of two polynomials whose product has degree below the size of the arrays (a power of two from four up to the size of the object): fft of both arrays, the raw multiplication of their cells in a parallel loop, and ifft come to an end on any number of x86-64 threads, and every order of the machine instructions, with every delay of the stores, leaves the limbs of the coefficients of the product in the first array.", "quantifier": "every odd prime modulus, both variants of the Montgomery code, all pairs of polynomials, all sizes up to 2^30, every number of threads, every placement in memory, every schedule of the instructions and every time at which stores reach the memory", "why_tests_cant": "The steps share tables and memory; that none of them disturbs the array another one left, for all placements and interleavings, cannot be tried out.", "anchors": ["c/fft.cpp: fft, ifft", "c/misc.hpp: parallelFor", "src/montgomerybuilder.js: buildMul", "src/fr.hpp.ejs: Raw class mul"]}
{"id": "C94", "title": "A parallel loop over independent cells computes what the sequential loop computes", "statement": "parallelFor with a body that performs for each index any sequence of raw field operations, such that an element set for one index is not used for another one, comes to an end on any number of x86-64 threads without a data race, and every order of the machine instructions, with every delay of the stores, leaves in memory, limb for limb, what the loop written with for computes; elements that no index sets keep their limbs, and the result does not depend on the number of threads.", "quantifier": "every odd prime modulus, both variants of the Montgomery code, all ranges within int, every body of raw operations, all contents, every number of threads, every placement in memory, every schedule of the instructions and every time at which stores reach the memory", "why_tests_cant": "The division of the range, the interleavings and the delays multiply; a gap or an overlap between parts shows only for some lengths and numbers of threads.", "anchors": ["c/misc.hpp: parallelFor, divideWork", "src/fr.hpp.ejs: Raw class add sub mul neg square copy", "src/montgomerybuilder.js"]}
{"id": "C95", "title": "A parallel loop whose body uses local field elements computes what the sequential loop computes", "statement": "parallelFor with a body that performs for each index any sequence of raw field operations on shared elements and on elements declared in the body, such that locals are set before they are read and a shared element set for one index is not used for another one, comes to an end on any number of x86-64 threads without a data race, and every order of the machine instructions, with every delay of the stores, leaves in the shared elements, limb for limb, what the loop written with for computes; all other elements except the locals keep their limbs. What the locals hold before an index, from the stack, from the index before or from an earlier loop, has no influence, and neither has the number of threads; several such loops one after the other compute what the sequential loops compute one after the other.", "quantifier": "every odd prime modulus, both variants of the Montgomery code, all ranges within int, every such body with any number of locals, all contents, every number of threads, every placement in memory, every schedule of the instructions and every time at which stores reach the memory", "why_tests_cant": "A local that one thread could see of another one, or a value left from the index before, changes the result only for some schedules and divisions of the range.", "anchors": ["c/misc.hpp: parallelFor, divideWork", "c/fft.cpp: reversePermutation, fft, ifft (locals tmp, t, u)", "src/fr.hpp.ejs: Raw class add sub mul neg square copy", "src/montgomerybuilder.js"]}
