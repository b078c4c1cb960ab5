{"id": "C01", "title": "Z/p arithmetic is integer arithmetic mod p", "statement": "For every modulus p>0 and all integers a,b: IntegersModP(p)(a) stores a representative in [0,p); +,-,*,unary - return the canonical representative of the corresponding integer result; and == holds exactly when the integers are congruent mod p. For prime p the elements form a field.", "quantifier": "all p>0 (prime p for the field claim), all integers a,b", "why_tests_cant": "The modulus is a parameter: there are infinitely many classes IntegersModP(p), each with its own operators, and a wrong reduction (say of a negative difference, or of a product just at a multiple of p) shows only at the pairs a, b where the reduction matters.", "anchors": ["starks/modp.py:IntegersModP"]}
{"id": "C02", "title": "Z/p inversion and division", "statement": "IntegersModP(p)(a).inverse() terminates for every p>1; it returns x with a*x = 1 (canonical) exactly when gcd(a,p)=1 and raises otherwise; in particular for prime p every nonzero element has an inverse, b/a is the unique solution of z*a=b, and inverting or dividing by 0 raises.", "quantifier": "all p>1, all integers a,b", "why_tests_cant": "Termination and the exact set of inputs that raise depend on the whole run of Euclid's algorithm on (a, p); a composite p with a common factor, or a sign that comes out wrong, is hit by few pairs, and there is a new set of pairs for every p.", "anchors": ["starks/modp.py:inverse", "starks/numbertype.py:FieldElement.__truediv__", "starks/euclidean.py:extended_euclidean_algorithm"]}
{"id": "C03", "title": "Z/p byte encoding round-trips", "statement": "For a canonical element x of Z/p with p<=2^256, IntegersModP(p)(x.to_bytes()) is x and the encoding is 32 bytes long; to_bytes raises OverflowError exactly when the stored integer needs more than 32 bytes; and constructing from a byte string yields an element equal to the constructed-from-int one exactly when the encoded integer is already below p (the byte constructor does not reduce).", "quantifier": "all p, all elements, all byte strings", "why_tests_cant": "The interesting byte strings are those that encode integers of at least p, 2^256 of them less p, and no finite list shows that no other string is misread.", "anchors": ["starks/modp.py:__init__", "starks/modp.py:to_bytes"]}
{"id": "C04", "title": "Euclid's algorithm on integers", "statement": "gcd(a,b) terminates for all integers and returns a number whose absolute value is the greatest common divisor; extended_euclidean_algorithm(a,b) terminates and returns (x,y,d) with a*x+b*y=d and d a greatest common divisor.", "quantifier": "all integers a,b of either sign, in either order", "why_tests_cant": "The number of rounds grows with the inputs, and the sign of the result depends on the order and the signs of both; a test fixes a number of rounds.", "anchors": ["starks/euclidean.py:gcd", "starks/euclidean.py:extended_euclidean_algorithm"]}
{"id": "C05", "title": "Euclid's algorithm on polynomials", "statement": "For polynomials over a field, gcd(f,g) terminates without raising and returns a greatest common divisor; extended_euclidean_algorithm returns (x,y,d) with f*x+g*y=d and d a greatest common divisor.", "quantifier": "all fields, all polynomials f,g (including zero)", "why_tests_cant": "Degrees and fields are unbounded, and the division by the leading coefficient fails only for particular coefficients (a zero remainder with a stale leading term).", "anchors": ["starks/euclidean.py:gcd", "starks/euclidean.py:extended_euclidean_algorithm", "starks/polynomial.py:__divmod__"]}
{"id": "C06", "title": "Exponentiation", "statement": "x**n computed by square-and-multiply equals the n-fold product for every n>=0, in every ring element type (Z/p, polynomials, multivariate polynomials) and in F_{p^m} by the recursive version. For negative n the generic version silently returns x (n odd) or 1 (n even), and the F_{p^m} version never returns.", "quantifier": "all elements, all integers n", "why_tests_cant": "Every exponent takes its own path of squarings and multiplications through the loop, so tests of some exponents say nothing about the others; four classes share or override the loop.", "anchors": ["starks/numbertype.py:DomainElement.__pow__", "starks/finitefield.py:Fq.__pow__"]}
{"id": "C07", "title": "Modular exponentiation", "statement": "f.powmod(n,m) is congruent to f^n modulo m for every n>=0 and, for n>=2, is the reduced remainder f^n % m itself.", "quantifier": "all polynomials f, all nonzero m, all n>=0", "why_tests_cant": "Every bit pattern of n is a different path through the loop, over all polynomials and moduli; whether the result is reduced changes between n = 1 and n = 2 only.", "anchors": ["starks/numbertype.py:DomainElement.powmod"]}
{"id": "C08", "title": "Polynomial representation is canonical", "statement": "Every polynomial built by a constructor or operator stores no trailing zero coefficient; two polynomials compare == exactly when they are mathematically the same polynomial, and != is the negation; degree() is the mathematical degree with -1 for zero; is_zero() detects exactly the zero polynomial.", "quantifier": "all coefficient lists over any commutative ring", "why_tests_cant": "Cancellation of leading coefficients happens only for special operands, and an unstripped zero is invisible until a later comparison; the claim is about every way to build a polynomial.", "anchors": ["starks/polynomial.py:strip", "starks/polynomial.py:__init__", "starks/polynomial.py:__eq__", "starks/polynomial.py:__ne__", "starks/polynomial.py:degree"]}
{"id": "C09", "title": "Polynomial ring operations", "statement": "+, -, unary - and * on polynomials compute exactly the ring operations of R[x], so all ring identities hold.", "quantifier": "all polynomials over any commutative ring", "why_tests_cant": "An identity of polynomials of all degrees over all rings: agreement on sample degrees does not bound the error at the ends of longer coefficient lists.", "anchors": ["starks/polynomial.py:__add__", "starks/polynomial.py:__sub__", "starks/polynomial.py:__mul__", "starks/polynomial.py:__neg__"]}
{"id": "C10", "title": "Polynomial division with remainder", "statement": "For a nonzero divisor g, divmod(f,g) terminates and returns the unique (q,r) with f=q*g+r and deg r<deg g; / and % return the components; a zero divisor makes / and % raise ZeroDivisionError and divmod raise IndexError.", "quantifier": "all polynomials over any field", "why_tests_cant": "The number of rounds is unbounded, uniqueness is a statement about all other pairs (q, r), and rounds in which more than one coefficient cancels are rare.", "anchors": ["starks/polynomial.py:__divmod__", "starks/polynomial.py:__truediv__", "starks/polynomial.py:__mod__"]}
{"id": "C11", "title": "Polynomial evaluation", "statement": "f(x) equals the mathematical evaluation, is a ring homomorphism in f for each x, and evaluating at a polynomial is composition.", "quantifier": "all polynomials, all points of any commutative algebra", "why_tests_cant": "The points may be of any class the coefficients act on, so the claim ranges over algebras, not only over inputs of one type.", "anchors": ["starks/polynomial.py:__call__"]}
{"id": "C12", "title": "F_{p^m} is a field", "statement": "For prime p, m>=2 and any irreducible modulus of degree m, FiniteField elements with the implemented +,-,*,neg,== form a field with exactly p^m elements, with canonical representatives of degree < m.", "quantifier": "all primes p, all m>=2, all irreducible moduli, all elements", "why_tests_cant": "The field laws relate three elements of p^m at a time, for every prime and every irreducible modulus; enumerating even one field of practical size is out of reach.", "anchors": ["starks/finitefield.py:FiniteField"]}
{"id": "C13", "title": "F_{p^m} inversion", "statement": "Every nonzero element's inverse() terminates, does not raise and multiplies to 1; inverting 0 raises ZeroDivisionError.", "quantifier": "all primes p, irreducible moduli, all elements", "why_tests_cant": "There is one element (zero) that must raise and p^m - 1 that must not, for every p and every modulus; a failing element in a large field is not found by sampling.", "anchors": ["starks/finitefield.py:Fq.inverse"]}
{"id": "C14", "title": "Irreducibility test is exact", "statement": "is_irreducible(f,p) terminates and returns True exactly for the irreducible polynomials among those of degree >= 1 over Z/p.", "quantifier": "all primes p, all polynomials of degree >= 1", "why_tests_cant": "The exceptional polynomials are the reducible ones that pass all gcd tests or the irreducible ones that fail one; the number of tests grows with the degree, so a missed factor degree shows only at degrees no test reaches.", "anchors": ["starks/poly_utils.py:is_irreducible"]}
{"id": "C15", "title": "Primitivity test is exact", "statement": "is_primitive(f,p,m) returns True exactly when f (of degree m) is irreducible and the class of x generates the multiplicative group of F_p[x]/(f), for every f not an associate of x; for f=c*x it wrongly returns True.", "quantifier": "all primes p, all f of degree m>=1, given a correct factorisation oracle", "why_tests_cant": "Exactness is over all polynomials of all degrees, and a wrong answer needs an x whose order is a proper divisor of p^m - 1 that the loop does not try.", "anchors": ["starks/poly_utils.py:is_primitive"]}
{"id": "C16", "title": "Random generation only returns what it promises", "statement": "Whatever values the random source produces, generate_irreducible_polynomial returns only monic irreducible polynomials of the requested degree and generate_primitive_polynomial only monic primitive ones.", "quantifier": "all primes, degrees and random streams", "why_tests_cant": "The outcome depends on random draws no test can enumerate.", "anchors": ["starks/poly_utils.py:generate_irreducible_polynomial", "starks/poly_utils.py:generate_primitive_polynomial"]}
{"id": "C17", "title": "Memoised type constructors are transparent", "statement": "After any history of calls with positional arguments, a memoised constructor returns what the wrapped function returned on the first call with those arguments, evaluates it at most once per distinct argument tuple, and never confuses two argument tuples. Keyword argument values are also distinguished.", "quantifier": "all call histories", "why_tests_cant": "Depends on the whole history of earlier calls.", "anchors": ["starks/numbertype.py:memoize"]}
{"id": "C18", "title": "Batch inversion", "statement": "multi_inv(field, values) returns the inverse at each nonzero position, whatever zeros appear elsewhere, performing a single field inversion and never raising; at a zero position it returns 0.", "quantifier": "all fields, all value lists", "why_tests_cant": "The product tree mixes all positions: whether a zero at one place spoils the inverse at another depends on the whole list, whose length is unbounded, and the number of inversions is not visible in the result.", "anchors": ["starks/poly_utils.py:multi_inv"]}
{"id": "C19", "title": "Polynomial from roots", "statement": "zpoly(field, roots) is the monic polynomial prod (x - r): degree len(roots), vanishing exactly on the roots.", "quantifier": "all fields, all root lists (with repetitions)", "why_tests_cant": "Root lists of all lengths with all multiplicities; that nothing else is a root is a statement about all elements of the field.", "anchors": ["starks/poly_utils.py:zpoly"]}
{"id": "C20", "title": "Lagrange interpolation", "statement": "For distinct xs and equally many ys, lagrange_interp returns without raising the unique polynomial of degree < len(xs) through all points; it raises when the lengths differ.", "quantifier": "all fields, all lists of distinct points", "why_tests_cant": "Uniqueness quantifies over all other polynomials, and the denominators can vanish only for special point sets, over any field and any number of points.", "anchors": ["starks/poly_utils.py:lagrange_interp"]}
{"id": "C21", "title": "Specialised interpolation agrees with the general one", "statement": "lagrange_interp_2, lagrange_interp_4 and multi_interp_4 return the unique polynomial of degree < 2 (resp. < 4) through the given points whenever the xs of a set are distinct; _2 and _4 raise when two xs coincide.", "quantifier": "all fields, all point sets, any number of sets", "why_tests_cant": "The formulas are unrolled by hand, so a slip in one of the terms cancels for particular points; agreement is an identity in eight variables over every field.", "anchors": ["starks/poly_utils.py:lagrange_interp_2", "starks/poly_utils.py:lagrange_interp_4", "starks/poly_utils.py:multi_interp_4"]}
{"id": "C22", "title": "Affine space enumeration", "statement": "Iterating an AffineSpace over Z/p yields exactly shift + span(basis), len() is the number of yielded items, and items are pairwise distinct exactly when the basis is linearly independent.", "quantifier": "all primes p, all bases, all shifts", "why_tests_cant": "The number of yielded elements is exponential in the length of the basis, and independence is a property of all linear combinations.", "anchors": ["starks/reedsolomon.py:AffineSpace"]}
{"id": "C23", "title": "Affine vanishing polynomial", "statement": "construct_affine_vanishing_polynomial vanishes exactly on the affine space and has degree equal to the size of the space.", "quantifier": "all fields, all affine spaces", "why_tests_cant": "The size of the space is exponential in the dimension, so exhaustive checks stop at toy spaces, where a wrong root set can coincide with the right one.", "anchors": ["starks/poly_utils.py:construct_affine_vanishing_polynomial"]}
{"id": "C24", "title": "FFT evaluates", "statement": "For w of multiplicative order n with n=2^k (or 3*2^k), NonBinaryFFT(field,w).fft(f) terminates and returns [f(1),f(w),...,f(w^(n-1))] for every f of degree < n.", "quantifier": "all fields, all such roots of unity, all polynomials", "why_tests_cant": "The recursion depth grows with the order n, the field and the root of unity are parameters, and the last level differs for n = 2^k and n = 3*2^k.", "anchors": ["starks/fft.py:_fft", "starks/fft.py:_simple_ft", "starks/fft.py:fft_1d"]}
{"id": "C25", "title": "Inverse FFT inverts", "statement": "inv_fft(fft(f)) == f for deg f<n, fft(inv_fft(v)) == v for every list v of n values, when the field has prime characteristic p (p does not divide n).", "quantifier": "all fields of prime characteristic, all roots of unity of such order, all polynomials and value lists", "why_tests_cant": "A round trip over all polynomials and value lists of all sizes; the factor 1/n and the order of the inverse root are right for some small n even if they are wrong in general.", "anchors": ["starks/fft.py:fft_1d", "starks/fft.py:NonBinaryFFT"]}
{"id": "C26", "title": "FFT polynomial multiplication", "statement": "mul_polys(a,b,w) returns the coefficients of a*b when deg(a*b) < n.", "quantifier": "all fields, all coefficient lists", "why_tests_cant": "Whether the product wraps around depends on both degrees and on n; a test at n = 1 or at operands 0 cannot see a wrong scaling, and a test at one n does not give the scaling for the others.", "anchors": ["starks/fft.py:mul_polys"]}
{"id": "C27", "title": "Power cycle", "statement": "get_power_cycle(r,field) returns [1,r,...,r^(k-1)] where k is the multiplicative order of r, with no repetition, for every r of finite order; for r=0 (or infinite order) it never returns.", "quantifier": "all fields, all elements", "why_tests_cant": "The loop ends only if the order is finite, so the negative part (it never returns) cannot be observed by running it.", "anchors": ["starks/utils.py:get_power_cycle"]}
{"id": "C28", "title": "Merkle index permutation", "statement": "For len divisible by 4, permute4 is a permutation of the list and places the element with index i at position get_index_in_permuted(i,len), which is a bijection on indices.", "quantifier": "all lists with length divisible by 4", "why_tests_cant": "A bijection on index sets of every size divisible by four; a collision at one size is not excluded by others.", "anchors": ["starks/merkle_tree.py:permute4", "starks/merkle_tree.py:get_index_in_permuted"]}
{"id": "C29", "title": "Merkle tree structure", "statement": "merkelize of a list of 4k items returns 2*4k nodes; the last 4k are the permuted encoded leaves and every inner node i>=1 is the hash of nodes 2i and 2i+1.", "quantifier": "all lists and any hash function", "why_tests_cant": "Trees of every size and every hash function, including ones with collisions, where a swapped pair of children could go unnoticed.", "anchors": ["starks/merkle_tree.py:merkelize"]}
{"id": "C30", "title": "Merkle completeness", "statement": "For a list of 2^k items (k>=2), verify_branch(root,i,mk_branch(tree,i)) succeeds and returns the encoding of item i.", "quantifier": "all k>=2, all lists, all indices, any hash function", "why_tests_cant": "All sizes, lists and positions for every hash function; the path through the tree follows the bits of the index, so every index is a different path.", "anchors": ["starks/merkle_tree.py:mk_branch", "starks/merkle_tree.py:verify_branch"]}
{"id": "C31", "title": "Merkle binding", "statement": "If verify_branch accepts two proofs of the same length for the same root and index, the returned leaves are equal, or a collision of the hash can be read off the proofs.", "quantifier": "all roots, indices and adversarial proofs", "why_tests_cant": "Ranges over adversarial proofs.", "anchors": ["starks/merkle_tree.py:verify_branch"]}
{"id": "C32", "title": "Leaf packing round-trips", "statement": "unpack_merkle_leaf applied to a packed leaf (concatenation of 32-byte encodings of num_polys*dims values) returns those encodings in order.", "quantifier": "all dims, num_polys, and all values", "why_tests_cant": "All numbers of registers and polynomials and all encodings; slices that overlap or leave gaps agree when neighbouring values are equal.", "anchors": ["starks/merkle_tree.py:unpack_merkle_leaf", "starks/merkle_tree.py:merkelize_polynomial_evaluations"]}
{"id": "C33", "title": "FRI proof compression round-trips", "statement": "For every FRI proof whose byte strings are not 2 bytes long and are not one of the four separator strings and that has at most 65536 objects, compress_fri succeeds and decompress_fri(compress_fri(prf)) == prf.", "quantifier": "all such proofs", "why_tests_cant": "Repetitions between any two of the unbounded number of objects are replaced by references, so correctness depends on the joint pattern of equalities in the whole proof.", "anchors": ["starks/compression.py:compress_fri", "starks/compression.py:decompress_fri"]}
{"id": "C34", "title": "Branch compression round-trips", "statement": "Likewise for compress_branches / decompress_branches.", "quantifier": "all lists of branches of such byte strings", "why_tests_cant": "Like C33: the pattern of repeated byte strings, not any single entry, decides what is written.", "anchors": ["starks/compression.py:compress_branches", "starks/compression.py:decompress_branches"]}
{"id": "C35", "title": "Compression never silently corrupts", "statement": "Whatever the input, if compress_fri (compress_branches) returns a value, decompressing it gives back the input; otherwise it raises.", "quantifier": "all inputs whatsoever", "why_tests_cant": "The claim is about inputs that no honest prover makes, in particular those where data look like references or separators.", "anchors": ["starks/compression.py:compress_fri", "starks/compression.py:compress_branches"]}
{"id": "C36", "title": "Pseudorandom indices are in range and avoid multiples", "statement": "get_pseudorandom_indices(entropy,modulus,count,e) returns exactly count indices, each in [0,modulus), none a multiple of e when e>=2, as a function of its arguments only; it raises for modulus>=2^24.", "quantifier": "all entropies, moduli, counts and excluded factors, any 32-byte hash", "why_tests_cant": "How many hash rounds are needed depends on count and modulus, and the shift that avoids multiples is exercised only by the residues that the hash happens to give.", "anchors": ["starks/utils.py:get_pseudorandom_indices"]}
{"id": "C37", "title": "Power-of-two test", "statement": "is_a_power_of_2(x) is True exactly for powers of two among x>=1, False for negative x, and does not return for 0.", "quantifier": "all integers", "why_tests_cant": "The negative part, that the call with 0 never returns, cannot be observed, and all integers of all sizes are concerned.", "anchors": ["starks/utils.py:is_a_power_of_2"]}
{"id": "C38", "title": "Pseudorandom coefficients", "statement": "get_pseudorandom_ks(root,num) returns num integers in [0,2^256) for 0<=num<10, depending only on root and num; for num>=10 it returns None.", "quantifier": "all roots, all num", "why_tests_cant": "The range is a statement about all 2^256 hash values, for every root and every number of coefficients.", "anchors": ["starks/stark.py:get_pseudorandom_ks"]}
{"id": "C39", "title": "Multivariate polynomial ring operations", "statement": "+,-,*,neg on multivariate polynomials compute the ring operations of R[X_1..X_n], and evaluation is the mathematical evaluation (hence a ring homomorphism).", "quantifier": "all n, all commutative rings, all polynomials, all points", "why_tests_cant": "The number of variables is a parameter, and terms meet or cancel only for special exponent tuples.", "anchors": ["starks/multivariate_polynomial.py:multivariates_over"]}
{"id": "C40", "title": "Multivariate representation is canonical", "statement": "No stored coefficient is zero, and == holds exactly when the polynomials are mathematically equal; degree() is the total degree.", "quantifier": "all polynomials", "why_tests_cant": "Zero coefficients arise by cancellation between terms of unbounded dictionaries, and equality must agree with equality as functions on all points, also where dictionaries are built in different orders.", "anchors": ["starks/multivariate_polynomial.py:__eq__", "starks/multivariate_polynomial.py:remove_zero_coefficients"]}
{"id": "C41", "title": "Univariate/multivariate conversions", "statement": "generate_Xi_s(field,width)[i] evaluates to the i-th coordinate; make_multivar(f,i) evaluates to f of the i-th coordinate; project_to_univariate(P,i), evaluated at x_i with coefficients evaluated at the other coordinates, equals P at the point.", "quantifier": "all fields, widths, indices, polynomials, points", "why_tests_cant": "Numbers of variables, indices and degrees are unbounded, and the values at all points are compared.", "anchors": ["starks/utils.py:generate_Xi_s", "starks/poly_utils.py:make_multivar", "starks/poly_utils.py:project_to_univariate"]}
{"id": "C42", "title": "Multivariate Dirac delta", "statement": "construct_multivariate_dirac_delta(field,y,n) evaluates to 1 at y and to 0 at every other point.", "quantifier": "all finite fields, n >= 1, points", "why_tests_cant": "That it vanishes everywhere else is a statement about q^n - 1 points.", "anchors": ["starks/poly_utils.py:construct_multivariate_dirac_delta"]}
{"id": "C43", "title": "Functions compile to polynomials", "statement": "construct_multivariate_coefficients(field,f,n) evaluates to f(x) at every x in F_q^n.", "quantifier": "all finite fields, all n, all functions", "why_tests_cant": "It ranges over all functions on F_q^n, of which there are q^(q^n).", "anchors": ["starks/poly_utils.py:construct_multivariate_coefficients"]}
{"id": "C44", "title": "AIR trace is an execution", "statement": "get_computational_trace(inp,steps,width,step_polys) has max(steps,1) states, starts with the input, every consecutive pair is related by the step polynomials, and the output is the last state.", "quantifier": "all fields, inputs, steps, step polynomials", "why_tests_cant": "The number of steps is unbounded and the step polynomials are arbitrary: an off-by-one in the trace is visible only in the last or first state of runs whose states differ there.", "anchors": ["starks/air.py:get_computational_trace"]}
{"id": "C45", "title": "AIR constraints characterise valid transitions", "statement": "The generated constraint polynomials all vanish at a pair of states exactly when the second is the step of the first; hence for every constructed AIR instance the circuit output C is True.", "quantifier": "all fields, step polynomials, state pairs", "why_tests_cant": "An equivalence over all pairs of states, valid or not; tests check valid pairs and a few invalid ones.", "anchors": ["starks/air.py:generate_constraint_polynomials", "starks/air.py:generate_monotone_circuit"]}
{"id": "C46", "title": "AIR witness and boundary", "statement": "generate_witness is the transpose of the trace and generate_boundary_constraints pins every input coordinate at time 0; every constraint holds on the witness.", "quantifier": "all inputs", "why_tests_cant": "All widths, inputs and numbers of steps; a transposition error is invisible when width is one or equals the number of steps.", "anchors": ["starks/air.py:generate_witness", "starks/air.py:generate_boundary_constraints"]}
{"id": "C47", "title": "STARK trace polynomials interpolate the witness", "statement": "construct_trace_polynomials returns polynomials of degree < steps that take the witness values at successive powers of the root of unity.", "quantifier": "all fields of prime characteristic, roots of admissible order, witnesses", "why_tests_cant": "The interpolation holds at each of `steps` points for traces of unbounded length, over every admissible field.", "anchors": ["starks/stark.py:construct_trace_polynomials"]}
{"id": "C48", "title": "STARK remainder check accepts exactly valid traces", "statement": "In the prover, construct_remainder_polynomials raises no assertion exactly when every consecutive pair of trace rows satisfies the step relation, and then returns D with C = Z*D.", "quantifier": "all fields, step polynomials, witnesses", "why_tests_cant": "The equivalence has to hold for traces that are wrong in a single row among any number of rows.", "anchors": ["starks/stark.py:construct_constraint_polynomials", "starks/stark.py:construct_remainder_polynomials"]}
{"id": "C49", "title": "STARK boundary polynomials", "statement": "If the witness starts with the boundary input, construct_boundary_polynomials returns B with P = I + B*(x-1)(x-x_last), where I interpolates input and output.", "quantifier": "all fields, witnesses", "why_tests_cant": "An identity of polynomials for all witnesses; zero outputs, for which the code takes another path, have measure zero among random witnesses.", "anchors": ["starks/stark.py:construct_boundary_polynomials"]}
{"id": "C50", "title": "STARK spot checks: completeness", "statement": "For an honest prover with a valid trace, verify_proof_at_position accepts at every sampled position.", "quantifier": "all valid traces, all positions, any hash", "why_tests_cant": "A verifier that refuses one honest position in many millions is not found by tests, and the claim is made for every hash function, which the tests fix.", "anchors": ["starks/stark.py:verify_proof_at_position", "starks/stark.py:compute_merkle_spot_checks"]}
{"id": "C51", "title": "STARK spot checks: what acceptance means", "statement": "If verify_proof_at_position accepts, the opened leaf values satisfy the transition relation P(g1 x) = f(P(x)) + Z(x) D(x) and the boundary relation P(x)=I(x)+Z2(x)B(x) at x=G2^pos, and the leaves are authenticated by the root.", "quantifier": "all adversarial proofs", "why_tests_cant": "Ranges over adversarial proofs.", "anchors": ["starks/stark.py:verify_proof_at_position"]}
{"id": "C52", "title": "STARK random linear combination", "statement": "compute_pseudorandom_linear_combination returns a fixed linear combination, determined by the Merkle root, of trace, remainder and boundary polynomials, so its degree is at most the maximum of theirs.", "quantifier": "all polynomials, entropies", "why_tests_cant": "All lists of polynomials and all roots; a dropped term is hidden when the polynomial concerned is zero.", "anchors": ["starks/stark.py:compute_pseudorandom_linear_combination"]}
{"id": "C53", "title": "Rationals mod p represent Z/p", "statement": "For RationalsModP(p), the value num/den in Z/p is preserved by the constructor and respected by +,-,*,neg,inverse, and == holds exactly when the values agree, for elements with invertible denominators; != is the negation of ==.", "quantifier": "all primes p, all elements with nonzero denominator", "why_tests_cant": "Fractions have many representatives, so the claim is about all representatives of a value, also those with common factors and negative parts.", "anchors": ["starks/rationals_modp.py:RationalsModP"]}
{"id": "C54", "title": "Binary comparison", "statement": "In a binary field, a.LT(b) is 1 exactly when the integer with a's coefficient bits is at most that of b.", "quantifier": "all m, all elements", "why_tests_cant": "The comparison loop treats every bit position; a wrong tie or a wrong end bit shows for one pair of elements in 2^(2m).", "anchors": ["starks/finitefield.py:LT"]}
{"id": "C55", "title": "Binary addition", "statement": "add_binary_nums(x,y) returns the little-endian binary digits of x+y.", "quantifier": "all bit strings of all lengths", "why_tests_cant": "Carries run through bit strings of every length; unequal lengths and a final carry are separate paths.", "anchors": ["starks/finitefield.py:add_binary_nums", "starks/finitefield.py:Regular_Binary_Addition"]}
{"id": "C56", "title": "Powers of two in the field", "statement": "a.two_pow() equals x^k where k is the integer encoded by a.", "quantifier": "all elements", "why_tests_cant": "The exponent is read off the element, so every element is its own case, and the field is a parameter.", "anchors": ["starks/finitefield.py:two_pow"]}
{"id": "C57", "title": "Floating-point algebra", "statement": "Floating-point values compare equal exactly when their components agree (or both are zero); multiplication is commutative; subtraction leaves its right operand unchanged; zero is neutral for addition and absorbing for multiplication; dividing by zero raises.", "quantifier": "all fields, all values", "why_tests_cant": "The algebraic laws relate several values with arbitrary mantissa, exponent, zero flag and sign over every field; special values (zero with a non-zero mantissa) are the ones at stake.", "anchors": ["starks/floatingpoint.py:FloatingPoint"]}
{"id": "C58", "title": "Additive FFT", "statement": "adfft(f,m,beta) returns the 2^m evaluations of f on the span of beta, and adfft_inverse inverts it.", "quantifier": "all binary fields, all f, all m", "why_tests_cant": "The recursion depth is m, the field and the basis are parameters, and the code fails at some bases only.", "anchors": ["starks/fft.py:Additive_FFT"]}
{"id": "C59", "title": "Isomorphism protocol completeness", "statement": "An honest prover knowing an isomorphism is accepted for every random permutation and both challenges.", "quantifier": "all graphs, isomorphisms, permutations, challenges", "why_tests_cant": "The number of permutations grows factorially with the graph, and both challenges must be accepted for each.", "anchors": ["misc/zero_knowledge.py:run_protocol"]}
{"id": "C60", "title": "Isomorphism protocol soundness", "statement": "If a single committed graph H can be answered acceptably for both challenges then G1 and G2 are isomorphic.", "quantifier": "all graphs, all adversarial provers", "why_tests_cant": "Ranges over adversarial provers.", "anchors": ["misc/zero_knowledge.py:ZKVerifier.accepts"]}
{"id": "C61", "title": "Isomorphism protocol simulator", "statement": "Every transcript output by simulate_protocol is accepted by the verifier.", "quantifier": "all graphs and random choices", "why_tests_cant": "All graphs and all random choices: a transcript that is refused may need one particular permutation.", "anchors": ["misc/zero_knowledge.py:simulate_protocol"]}
{"id": "C62", "title": "Bit and integer commitments open correctly", "statement": "For every permutation and predicate functions, decoding a commitment with its revealed secret returns the committed bit (integer below 2^numBits, numBits at least 1) and verification succeeds.", "quantifier": "all functions, secrets, integers below 2^numBits", "why_tests_cant": "The committed integers, secrets and functions are arbitrary; the leading zero bits of the integer are where an encoding goes wrong.", "anchors": ["misc/commitment.py"]}
{"id": "C63", "title": "Commitment binding", "statement": "A commitment cannot be opened to two different bits.", "quantifier": "all moduli, all adversarial openings", "why_tests_cant": "Ranges over adversarial openings.", "anchors": ["misc/commitment.py:BBSBitCommitmentVerifier", "misc/blum_blum_shub.py"]}
{"id": "C64", "title": "3-coloring protocol", "statement": "With a proper colouring the verifier accepts for every random choice; if the committed colouring is improper, some edge makes an honest opening rejected.", "quantifier": "all graphs, colourings, random choices", "why_tests_cant": "The random choices range over all permutations of colours, secrets and edges, and the second half quantifies over all improper colourings.", "anchors": ["misc/zkp_3_coloring.py"]}
{"id": "C65", "title": "Primality test never rejects a prime", "statement": "probablyPrime(p) returns True for every prime p whatever the random bases; when it returns False the number is not prime.", "quantifier": "all integers p, all random choices", "why_tests_cant": "Depends on random draws.", "anchors": ["misc/primality.py"]}
{"id": "C66", "title": "Blockchain validity invariant", "statement": "After any sequence of API operations (new transaction, mine, resolve), the node's own chain passes valid_chain, block indices count up from 1, and every mined block satisfies the proof of work.", "quantifier": "all operation histories, any hash function", "why_tests_cant": "Ranges over histories.", "anchors": ["misc/blockchain.py:Blockchain"]}
{"id": "C67", "title": "Blockchain transactions are conserved", "statement": "Every submitted transaction is, after any history of submissions and minings, in exactly one place: the pending pool or exactly one block, in submission order.", "quantifier": "all histories", "why_tests_cant": "Ranges over histories.", "anchors": ["misc/blockchain.py:new_transaction", "misc/blockchain.py:new_block"]}
{"id": "C68", "title": "Consensus never shortens the chain", "statement": "resolve_conflicts replaces the chain only by a valid chain that is strictly longer, the longest among peers.", "quantifier": "all peers' answers", "why_tests_cant": "Ranges over adversarial peers.", "anchors": ["misc/blockchain.py:resolve_conflicts"]}
{"id": "C69", "title": "Concurrent mining keeps the chain valid", "statement": "For every interleaving of concurrent /mine requests the chain stays valid.", "quantifier": "all schedules", "why_tests_cant": "Depends on the schedule.", "anchors": ["misc/blockchain.py:mine"]}
{"id": "C70", "title": "MiMC rounds are permutations", "statement": "For every prime modulus p = 2 mod 3 and non-empty round constants, mimc's rounds map [0,p) injectively into [0,p), for every number of rounds: different inputs never collide.", "quantifier": "all inputs, round constants and numbers of steps", "why_tests_cant": "Injectivity relates all pairs of inputs of a domain of size p, for every number of rounds.", "anchors": ["starks/utils.py:mimc"]}
{"id": "C71", "title": "Integer coefficients are reduced into the ring", "statement": "A multivariate polynomial built from a dictionary of ints equals the one built from the same values cast into the ring.", "quantifier": "all rings, all dictionaries", "why_tests_cant": "Dictionaries of all sizes over all rings; coefficients that become zero by reduction are the special case.", "anchors": ["starks/multivariate_polynomial.py:__init__"]}
{"id": "C72", "title": "Proof size accounting", "statement": "bin_length(c) is the total number of bytes of the strings in c plus one for every string of exactly 32 bytes.", "quantifier": "all lists of byte strings", "why_tests_cant": "All lists of byte strings; strings of exactly 32 bytes are counted differently, so the claim depends on every length.", "anchors": ["starks/compression.py:bin_length"]}
{"id": "C73", "title": "STARK parameters", "statement": "If precision = steps*extension_factor divides p-1, the STARK constructor returns an object whose G2 has order precision, whose G1 has order steps and whose last step position is G1^(steps-1).", "quantifier": "all fields, steps, extension factors", "why_tests_cant": "The generator search runs through the field, whose size is a parameter; that an element has exactly the order claimed is a statement about all its smaller powers.", "anchors": ["starks/stark.py:STARK.__init__"]}
{"id": "C74", "title": "STARK completeness", "statement": "verify_proof accepts the proof mk_proof makes from a valid execution, for every number of spot checks, given a complete proximity test.", "quantifier": "all computations, valid executions, hash functions", "why_tests_cant": "Completeness must hold for every computation and witness, for every number of spot checks and for every hash function; tests run a few computations with one hash.", "anchors": ["starks/stark.py:mk_proof", "starks/stark.py:verify_proof"]}
{"id": "C75", "title": "STARK soundness", "statement": "If verify_proof accepts (with a sound proximity test), there is an execution of the step polynomials from the boundary input to the claimed output.", "quantifier": "all adversarial proofs", "why_tests_cant": "Ranges over all proofs an adversary can write.", "anchors": ["starks/stark.py:verify_proof", "starks/stark.py:verify_proof_at_position"]}
{"id": "C76", "title": "STARK spot checks: algebraic soundness", "statement": "If the committed values are those of polynomials and the spot checks pass at more positions than the degrees involved, the trace polynomial's values are an execution from the boundary input to the claimed output.", "quantifier": "all polynomials, sets of positions, proofs", "why_tests_cant": "Ranges over all committed polynomials.", "anchors": ["starks/stark.py:verify_proof_at_position"]}
{"id": "C77", "title": "Floating-point exponentiation", "statement": "x ** y returns for all x, y: it is the product of k copies of x starting from 1, k being the integer encoded by y's fixed-point value, and 1 divided by that product when y's sign bit is set.", "quantifier": "all fields, floats x and y", "why_tests_cant": "The number of factors is read off a fixed-point value, and it is unbounded.", "anchors": ["starks/floatingpoint.py:__pow__", "starks/floatingpoint.py:Float_to_Fix"]}
{"id": "C78", "title": "Floating-point sums and products agree with fixed-point values", "statement": "Addition of floats commutes, and converting to fixed point turns floating-point sums and products into sums and products of field elements.", "quantifier": "all fields, pairs of floats", "why_tests_cant": "Laws for all pairs of floats, where the failing pairs need particular exponents and zero flags.", "anchors": ["starks/floatingpoint.py:__add__", "starks/floatingpoint.py:__mul__"]}
{"id": "C79", "title": "Convincing the verifier beyond doubt", "statement": "For every tolerance of at least 0, convince_beyond_doubt runs one protocol round after the other until the first round k with 2^-k at most the tolerance, in double precision, so never more than 1075 rounds; it raises AssertionError in the first round the verifier rejects, and never with an honest prover whose two graphs have the same largest vertex number and list their edges in corresponding order. For a negative tolerance it does not end with such a prover.", "quantifier": "all graphs, isomorphisms, tolerances, random draws of all rounds", "why_tests_cant": "Ranges over all random draws and tolerances.", "anchors": ["misc/zero_knowledge.py:convince_beyond_doubt"]}
{"id": "C80", "title": "Primality test error bound", "statement": "For every composite number and accuracy k, at most the fraction 4^-k of all the vectors of k bases the test can draw makes probablyPrime answer True.", "quantifier": "all composite numbers, all accuracies, all vectors of bases", "why_tests_cant": "A count over all random draws for all numbers.", "anchors": ["misc/primality.py:probablyPrime", "misc/primality.py:isWitness"]}
{"id": "C81", "title": "Blum-Blum-Shub is a permutation of the quadratic residues", "statement": "For a modulus that is a product of two primes congruent to 3 mod 4, the function blum_blum_shub returns permutes the squares modulo it; good_prime accepts exactly the primes congruent to 3 mod 4 among primes; parity is the number of binary ones mod 2.", "quantifier": "all such moduli, all ints", "why_tests_cant": "A permutation of a set whose size grows with the modulus; the modulus ranges over all products of such primes.", "anchors": ["misc/blum_blum_shub.py:blum_blum_shub", "misc/blum_blum_shub.py:good_prime", "misc/blum_blum_shub.py:parity"]}
{"id": "C82", "title": "3-coloring protocol soundness", "statement": "If one commitment can be opened so that the verifier accepts every edge, the graph is 3-colourable.", "quantifier": "all graphs, commitments, adversarial openings", "why_tests_cant": "Ranges over all adversarial provers.", "anchors": ["misc/zkp_3_coloring.py:ZK3ColVerifier.accepts", "misc/commitment.py:BBSIntCommitmentVerifier"]}
{"id": "C83", "title": "Announced block index", "statement": "The index new_transaction returns is the index of the block that will hold the transaction: at any later time either the chain is not that long and the transaction is pending, or the block at that position has that index and contains it.", "quantifier": "all histories before and after the submission", "why_tests_cant": "Ranges over histories.", "anchors": ["misc/blockchain.py:new_transaction", "misc/blockchain.py:new_block"]}
{"id": "C84", "title": "Concurrent requests conserve transactions", "statement": "For every interleaving of /mine and /transactions/new requests, every transaction added is afterwards in exactly one place, the pending pool or one block.", "quantifier": "all schedules, at the grain of single accesses to shared objects", "why_tests_cant": "Depends on the schedule.", "anchors": ["misc/blockchain.py:new_transaction", "misc/blockchain.py:new_block", "misc/run_blockchain.py:mine"]}
{"id": "C85", "title": "Blocks are immutable", "statement": "Once a block is in the chain, no /mine or /transactions/new request alters or removes it, whatever the interleaving; a chain that was valid is not made invalid by a submission.", "quantifier": "all histories and schedules", "why_tests_cant": "Depends on the schedule.", "anchors": ["misc/blockchain.py:new_transaction", "misc/blockchain.py:new_block"]}
{"id": "C86", "title": "The default modulus", "statement": "The modulus fixed in mimc and used with the STARK, 2^256 - 2^32*351 + 1, is prime, fits 32 bytes, makes cubing invertible, and 7^((p-1)/2^k) has order exactly 2^k for every k up to 32, so the STARK constructor works for every power-of-two size.", "quantifier": "all sizes 2^k, k <= 32", "why_tests_cant": "Primality and orders are facts about all residues.", "anchors": ["starks/utils.py:mimc", "starks/stark.py:STARK.__init__"]}
{"id": "C87", "title": "Gaussian elimination solves linear systems", "statement": "For every square matrix over the polynomial ring with non-zero determinant whose system has a solution, gauss returns that solution; for a singular matrix it raises.", "quantifier": "all sizes, matrices and right-hand sides, all outcomes of the pivot search", "why_tests_cant": "Matrices of every size, with every pattern of zero pivots; the pivot search compares objects, so its outcome also depends on which objects are shared.", "anchors": ["starks/poly_utils.py:gauss", "starks/poly_utils.py:max"]}
{"id": "C88", "title": "Moore-matrix vanishing polynomial", "statement": "construct_affine_vanishing_polynomial_Moore(field, aff) returns the polynomial of degree 2^d that vanishes exactly on the span of the d basis elements.", "quantifier": "all bases", "why_tests_cant": "The matrix grows with the basis, and that the result vanishes nowhere else is a statement about the whole field.", "anchors": ["starks/poly_utils.py:construct_affine_vanishing_polynomial_Moore"]}
{"id": "C89", "title": "APR constructor", "statement": "Reducing an AIR to an APR returns exactly when the search for the primitive polynomial ends and sympy divides X(X-1) by the vanishing polynomial of the subspace H0, and the object then has one witness polynomial and one pair of boundary polynomials per register and two constraints per transition polynomial.", "quantifier": "all prime moduli, extension fields, AIR objects, zero-knowledge expansions, random draws", "why_tests_cant": "Whether the constructor returns depends on a random search and on a factorisation by sympy, over all fields and AIR objects.", "anchors": ["starks/apr.py:APR.__init__"]}
{"id": "C90", "title": "APR boundary polynomials", "statement": "For every register j, Z_boundaries[j] is the product of x - (point of step i) over the boundary constraints (i, j, alpha) of register j, and Eps_boundaries[j] takes the value alpha at that point.", "quantifier": "all AIR objects and fields", "why_tests_cant": "All boundary lists and registers; an error that mixes up registers is invisible with one register.", "anchors": ["starks/apr.py:construct_Z_boundaries", "starks/apr.py:construct_Eps_boundaries"]}
{"id": "C91", "title": "APR witness encodes the trace", "statement": "For every register j, Eps_boundaries[j] + Z_boundaries[j]*w[j] takes the value of register j after step i at the point of step i, for each of the first 2^t steps.", "quantifier": "all AIR objects and fields", "why_tests_cant": "All registers and all of the 2^t steps of all computations.", "anchors": ["starks/apr.py:generate_witness", "starks/apr.py:draw_random_interpolant"]}
{"id": "C92", "title": "APR evaluation spaces and rates", "statement": "The affine spaces L and Lcmp can be enumerated, and the rates are the degree bounds divided by their numbers of elements; they lie between 0 and 1.", "quantifier": "all AIR objects, fields, expansions", "why_tests_cant": "The spaces have p^(m*d) elements, far too many to enumerate in a test, which is part of the claim.", "anchors": ["starks/apr.py:construct_L", "starks/apr.py:construct_L_cmp", "starks/apr.py:compute_rho_js", "starks/apr.py:compute_rho_cmp"]}
{"id": "C93", "title": "APR neighbours follow the computation", "statement": "The points of the 2^t steps are pairwise different, and for every register and step one of the register's cyclic neighbour polynomials maps the point of the step to that of the next one.", "quantifier": "all AIR objects, fields, steps, registers", "why_tests_cant": "That the points are pairwise different relates all 2^t steps, for every field and modulus.", "anchors": ["starks/apr.py:construct_neighbors", "starks/poly_utils.py:generate_primitive_polynomial"]}
{"id": "C94", "title": "APR constraint polynomials", "statement": "Every constraint polynomial of the APR rejects the assignments that violate the transition polynomial it is built from, its arguments being X_(tau,N)*Z_tau(N(X_loc)) + E_tau(N(X_loc)).", "quantifier": "all AIR objects, fields, assignments", "why_tests_cant": "It is about all violating assignments, not about the satisfying ones a test would build.", "anchors": ["starks/apr.py:construct_Phi_polynomials", "starks/apr.py:tilde_expansion"]}
{"id": "C95", "title": "FRI commitment phase", "statement": "commit(f) returns the coefficients of the polynomial left after the folding rounds, truncated to the degree bound; for a codeword and one round these are its own coefficients.", "quantifier": "all affine spaces, rates, functions, numbers of rounds, challenges", "why_tests_cant": "The number of rounds, the space, the rate and the challenges are all parameters.", "anchors": ["starks/fri.py:AffineSubspaceFRI.commit"]}
{"id": "C96", "title": "FRI completeness", "statement": "For every codeword, query accepts what commit returns, whatever the random draws.", "quantifier": "all affine spaces, rates, codewords, challenges, random draws", "why_tests_cant": "Ranges over all random draws and codewords.", "anchors": ["starks/fri.py:AffineSubspaceFRI.commit", "starks/fri.py:AffineSubspaceFRI.query"]}
{"id": "C97", "title": "FRI soundness", "statement": "query rejects a proof whose coefficients do not agree with the functions it queries.", "quantifier": "all affine spaces, rates, functions, proofs, challenges, random draws", "why_tests_cant": "Ranges over all adversarial proofs.", "anchors": ["starks/fri.py:AffineSubspaceFRI.query"]}
{"id": "C98", "title": "FRI challenges", "statement": "HextoBin returns the binary digits of its argument, most significant first; select_random returns a field element determined by the hash of its argument, for every field.", "quantifier": "all numbers, fields and strings", "why_tests_cant": "All numbers and all strings; whether the digits fit the field depends on the hash value.", "anchors": ["starks/fri.py:HextoBin", "starks/fri.py:select_random"]}
{"id": "C99", "title": "FRI subspace selection", "statement": "select_subspace(space, eta) is the subspace spanned by the first eta basis elements, and all its elements belong to the space.", "quantifier": "all affine spaces, all eta", "why_tests_cant": "All spaces, bases and eta; membership of all elements is exponential in eta.", "anchors": ["starks/fri.py:select_subspace"]}
{"id": "C100", "title": "FRI folding map", "statement": "eval_on_subspace with the vanishing polynomial of the selected subspace lists one value per element of the space, and two elements get the same value exactly when they differ by an element of the subspace.", "quantifier": "all affine spaces with independent bases, all eta", "why_tests_cant": "An equivalence between all pairs of elements of the space.", "anchors": ["starks/fri.py:eval_on_subspace", "starks/poly_utils.py:construct_affine_vanishing_polynomial"]}
{"id": "C101", "title": "ALI proof generation", "statement": "ALIProver(apr).generate_proof() returns the witness with two masks, for every APR.", "quantifier": "all APR objects", "why_tests_cant": "All APR objects: that no call succeeds cannot be concluded from some calls that fail.", "anchors": ["starks/ali.py:ALIProver.generate_proof"]}
{"id": "C102", "title": "ALI random constraint", "statement": "ALIProver(apr).generate_random_constraint(rphi) returns the sum of rphi[i] times the i-th constraint polynomial.", "quantifier": "all APR objects and coefficients", "why_tests_cant": "All APR objects and coefficient lists: that no call succeeds cannot be concluded from some calls that fail.", "anchors": ["starks/ali.py:ALIProver.generate_random_constraint"]}
{"id": "C103", "title": "Mixed-type operators", "statement": "+, -, * and == between values of different classes (int, Z/p element, polynomial over Z/p, element of F_{p^m}, polynomial over F_{p^m}, multivariate polynomial over either) act as if the value of the smaller class were first converted to the larger one, in either order; and so does every expression built from them.", "quantifier": "all values of the seven classes, all primes and moduli, all expressions", "why_tests_cant": "Seven classes and five operators on either side give hundreds of combinations of dispatch, each over all values, and nested expressions multiply them.", "anchors": ["starks/numbertype.py:typecheck", "starks/numbertype.py:DomainElement.__radd__", "starks/numbertype.py:DomainElement.__rsub__", "starks/numbertype.py:DomainElement.__rmul__", "starks/polynomial.py:__init__", "starks/finitefield.py:Fq.__init__", "starks/multivariate_polynomial.py:__init__"]}
{"id": "C104", "title": "Evaluating a polynomial at values of other classes", "statement": "g(x) for a polynomial g over Z/p or F_{p^m} is the mathematical evaluation for every x of a class the coefficients embed in: ints, elements of either field, polynomials in one or several variables.", "quantifier": "all polynomials g, all x of all classes", "why_tests_cant": "The result class and the coercions at every step of the evaluation depend on the class of the point; all polynomials and all points of all classes are concerned.", "anchors": ["starks/polynomial.py:__call__", "starks/numbertype.py:typecheck"]}
{"id": "C105", "title": "Evaluating a multivariate polynomial at values of mixed classes", "statement": "g(vals) for a multivariate polynomial g is the mathematical evaluation for every list of the right length of values of classes the coefficients embed in, also if the list mixes classes; a list of another length raises AssertionError.", "quantifier": "all multivariate polynomials, all lists of values", "why_tests_cant": "A list can mix classes in any pattern, and the result depends on the order in which the terms are added.", "anchors": ["starks/multivariate_polynomial.py:__call__", "starks/numbertype.py:typecheck"]}
{"id": "C106", "title": "Mixed-type division", "statement": "a / b, for values of different classes with b not zero, is the quotient in the larger class: of field elements, ints and polynomials in one variable.", "quantifier": "all values of the classes with one variable", "why_tests_cant": "The combinations of classes, times all values of each; zero divisors hidden in a coercion are the special cases.", "anchors": ["starks/numbertype.py:FieldElement.__truediv__", "starks/numbertype.py:FieldElement.__rtruediv__", "starks/polynomial.py:__truediv__"]}
{"id": "C107", "title": "Reading polynomials from sympy's text", "statement": "StrToMulti(st, s), where st is the text sympy prints for a polynomial in s variables with integer coefficients, returns that polynomial over the coefficient ring; it terminates on every string.", "quantifier": "all polynomials, all numbers of variables, all coefficient rings; for termination all strings", "why_tests_cant": "The input is any string; termination on all strings, and exactness on all texts sympy can print, with any number of digits and variables.", "anchors": ["starks/multivariate_polynomial.py:StrToMulti", "starks/multivariate_polynomial.py:size_p"]}
{"id": "C108", "title": "Dividing multivariate polynomials", "statement": "If b divides a, then (a / b) * b == a, for multivariate polynomials a, b over Z/p; a.div_remainder(b, q) == a - b * q.", "quantifier": "all pairs of polynomials, all primes, all numbers of variables", "why_tests_cant": "Divisibility modulo p differs from divisibility over the integers only for particular pairs, and the number of variables is a parameter.", "anchors": ["starks/multivariate_polynomial.py:__truediv__", "starks/multivariate_polynomial.py:__repr__", "starks/multivariate_polynomial.py:size_p", "starks/multivariate_polynomial.py:div_remainder"]}
{"id": "C109", "title": "Univariate polynomials as multivariate ones", "statement": "g.PolytoMulti(f), for f a polynomial in one variable over the coefficient field of g, returns f as a multivariate polynomial of the class of g.", "quantifier": "all multivariate g, all polynomials f over every finite field", "why_tests_cant": "All polynomials over every finite field, and all receivers, whose own terms decide the shape of the result.", "anchors": ["starks/multivariate_polynomial.py:PolytoMulti", "starks/multivariate_polynomial.py:CheckforDiv", "starks/polynomial.py:__repr__", "starks/finitefield.py:__repr__"]}
{"id": "C110", "title": "Composing with multivariate polynomials", "statement": "f(x), for f a polynomial in one variable and x a multivariate polynomial over the same field, is the composite f(x); P(vals), for P a multivariate polynomial and vals a list of multivariate polynomials of its number of variables, is the composite, and any other number of arguments raises AssertionError.", "quantifier": "all polynomials and all lists of arguments over every field", "why_tests_cant": "Composition multiplies degrees, so the results of tests stay small; the claim is an identity for all polynomials.", "anchors": ["starks/polynomial.py:__call__", "starks/multivariate_polynomial.py:__call__"]}
{"id": "C111", "title": "Dividing a multivariate polynomial by one in one variable", "statement": "a.division(f), for a multivariate polynomial a over a finite field and f a polynomial in one variable such that f(X_1) divides a, returns q with q * f(X_1) == a.", "quantifier": "all a and f over every finite field, any number of variables", "why_tests_cant": "It fails or holds for whole families of dividends and divisors; single runs do not show which.", "anchors": ["starks/multivariate_polynomial.py:division", "starks/multivariate_polynomial.py:CheckforDiv", "starks/multivariate_polynomial.py:size_p", "starks/apr.py:construct_Phi_polynomials"]}
{"id": "C112", "title": "Bytes of polynomials and extension field elements", "statement": "Polynomial(x.to_bytes()) == x and Fq(x.to_bytes()) == x; the constructors reduce what they read into the field, and raise ValueError on a byte string whose length is no multiple of 32; lists of extension field elements can be put in a Merkle tree.", "quantifier": "all polynomials and elements over every field, all byte strings", "why_tests_cant": "All byte strings of all lengths, and all elements of every field.", "anchors": ["starks/polynomial.py:__init__", "starks/polynomial.py:to_bytes", "starks/finitefield.py:Fq.__init__", "starks/finitefield.py:to_bytes", "starks/merkle_tree.py:merkelize"]}
{"id": "C113", "title": "Merkle indices outside the list", "statement": "mk_branch(tree, x) and verify_branch(root, x, proof) raise for an index x that is no position of the list (or, for negative x, follow Python's convention that -1 is the last item).", "quantifier": "all ints x, all trees, all proofs", "why_tests_cant": "There are infinitely many integers outside the list for every tree, and adversarial proofs for each.", "anchors": ["starks/merkle_tree.py:mk_branch", "starks/merkle_tree.py:verify_branch", "starks/merkle_tree.py:get_index_in_permuted"]}
{"id": "C114", "title": "The Blum-Blum-Shub modulus", "statement": "blum_blum_shub(n) ends and returns squaring modulo a product of two different large primes that are 3 modulo 4; the function permutes the squares modulo it.", "quantifier": "all numbers of bits, all random draws", "why_tests_cant": "It depends on random draws, and that the search ends is not observable in a run that does not.", "anchors": ["misc/blum_blum_shub.py:find_good_prime", "misc/blum_blum_shub.py:make_modulus", "misc/blum_blum_shub.py:blum_blum_shub"]}
{"id": "C115", "title": "Constructing finite fields", "statement": "FiniteField(p, m, polynomialModulus=f), for f of degree m, returns the class of polynomials modulo f, with p^m elements, when f is irreducible over Z/p and raises ValueError when it is not, after every history of calls and whether the arguments are given by position or by keyword; a modulus of another degree is not accepted.", "quantifier": "all primes, degrees, moduli and histories of calls", "why_tests_cant": "The classes are memoised, so the outcome depends on the history of earlier calls with any arguments.", "anchors": ["starks/finitefield.py:FiniteField", "starks/numbertype.py:memoize", "starks/poly_utils.py:is_irreducible"]}
{"id": "C116", "title": "Reading the inputs of the logistic regression", "statement": "`Read_from_File` returns, for each number of the file in order, four lists: the mantissa bits of the double (lowest first), its exponent bits (lowest first), a list with the flag that says the number is zero, and a list with the sign. Two numbers that are different get different lists. `Logistic_Regression` then returns the weighted sum of the inputs plus the bias.", "quantifier": "all input files and all numbers in them", "why_tests_cant": "The inputs are all doubles and all files; denormal numbers, signed zeros and numbers without a fraction are separate paths.", "anchors": ["starks/test/Logistic_Regression.py:Read_from_File", "starks/test/Logistic_Regression.py:floatToBinary64", "starks/test/Logistic_Regression.py:getBin", "starks/test/Logistic_Regression.py:Logistic_Regression"]}
{"id": "C117", "title": "Operators between different kinds of elements", "statement": "An operator + - * / == applied to an element of IntegersModP(p) or RationalsModP(p) and an int, a byte string or an element of one of these classes, on either side, computes in Z/p when both operands have a value there, and raises TypeError when they have different moduli. == never raises and is symmetric, and so is the value of +.", "quantifier": "all primes, elements, ints, byte strings, on either side of the operator", "why_tests_cant": "Classes, sides and operators combine, with all primes and values for each; unequal moduli are combined silently, which only an exact statement shows.", "anchors": ["starks/numbertype.py:typecheck", "starks/numbertype.py:DomainElement.__radd__", "starks/numbertype.py:DomainElement.__rsub__", "starks/numbertype.py:FieldElement.__rtruediv__", "starks/modp.py:IntegersModP", "starks/rationals_modp.py:RationalsModP"]}
{"id": "C118", "title": "Texts of elements and polynomials", "statement": "Two values of one class (integers modulo p, rationals modulo p, polynomials over Z/p, elements of FiniteField(p, m), polynomials over it, multivariate polynomials) print the same text exactly when they are equal; the class called on the text of an integer or rational modulo p returns it.", "quantifier": "all primes, degrees, moduli and values", "why_tests_cant": "Injectivity of a text relates all pairs of values of a class.", "anchors": ["starks/modp.py:IntegerModP.__str__", "starks/modp.py:IntegerModP.__repr__", "starks/rationals_modp.py:RationalModP.__str__", "starks/polynomial.py:Polynomial.__repr__", "starks/finitefield.py:Fq.__repr__", "starks/multivariate_polynomial.py:MultivariatePolynomial.__repr__"]}
{"id": "C119", "title": "Euclid's algorithm on field elements", "statement": "divmod, gcd and extended_euclidean_algorithm also work on elements of IntegersModP(p) and FiniteField(p, m): divmod(a, b) for b != 0 returns q and r with a == q*b + r and r smaller than b; gcd returns the element represented by a greatest common divisor of the representatives; the extended version returns x, y and d with a*x + b*y == d.", "quantifier": "all primes, moduli and elements", "why_tests_cant": "The same algorithm runs on elements whose order is not that of a Euclidean ring; the remainder condition is about all pairs.", "anchors": ["starks/euclidean.py:gcd", "starks/euclidean.py:extended_euclidean_algorithm", "starks/modp.py:IntegerModP.__divmod__", "starks/modp.py:IntegerModP.__abs__", "starks/finitefield.py:Fq.__divmod__", "starks/finitefield.py:Fq.__abs__"]}
{"id": "C120", "title": "FRI challenges agree", "statement": "Prover and verifier derive the same challenge: commit and query on the same object hash the same text in each round, and that text is determined by public data, so that a proof checked in another run gets the same challenges.", "quantifier": "all objects, extension fields, digest functions, runs", "why_tests_cant": "The texts hashed depend on object identity and on the run, which a test within one run cannot vary.", "anchors": ["starks/fri.py:AffineSubspaceFRI.commit", "starks/fri.py:AffineSubspaceFRI.query", "starks/fri.py:select_random", "starks/reedsolomon.py:AffineSpace"]}
{"id": "C121", "title": "Operands that belong to different fields", "statement": "Elements of different finite fields, and polynomials (in one or several variables) over different fields, are never combined or compared: +, -, * and == raise TypeError in either order.", "quantifier": "all pairs of primes, moduli, numbers of variables, and all values of their classes", "why_tests_cant": "All pairs of fields: that nothing is ever combined silently is a statement about every pair of values.", "anchors": ["starks/numbertype.py:typecheck", "starks/polynomial.py:Polynomial.__init__", "starks/finitefield.py:Fq.__init__", "starks/multivariate_polynomial.py:MultivariatePolynomial.__init__", "starks/modp.py:IntegerModP.__init__"]}
{"id": "C122", "title": "Successive FRI queries", "statement": "query(f, coeff) can be called again with the same list f: it leaves f as it was, and each answer is the one the call would get with a fresh list.", "quantifier": "all affine spaces, rates, functions, sequences of proofs and random draws", "why_tests_cant": "Ranges over all histories of calls.", "anchors": ["starks/fri.py:AffineSubspaceFRI.query"]}
{"id": "C123", "title": "Transcripts of the isomorphism protocol", "statement": "The transcript an honest run produces (graph sent, challenge, witness) is accepted by the verifier for every permutation drawn and both challenges, and simulate_protocol, which does not know the isomorphism, produces transcripts with the same distribution: every transcript arises from as many permutations in the one as in the other.", "quantifier": "all pairs of isomorphic graphs, isomorphisms, permutations drawn, challenges, transcripts", "why_tests_cant": "The claim compares two distributions over all permutations, for every graph.", "anchors": ["misc/zero_knowledge.py:messages_from_protocol", "misc/zero_knowledge.py:simulate_protocol"]}
{"id": "C124", "title": "Registered nodes and request bodies", "statement": "After any history of requests a node knows exactly the addresses registered with it, each once; a request to register several addresses, or to submit a transaction, either is carried out entirely or changes nothing.", "quantifier": "all histories of requests, addresses, request bodies, states", "why_tests_cant": "An invariant over all histories of requests with arbitrary bodies, also malformed ones.", "anchors": ["misc/blockchain.py:Blockchain.register_node", "misc/run_blockchain.py:register_nodes", "misc/run_blockchain.py:new_transaction"]}
{"id": "C125", "title": "Consensus spreads through a network", "statement": "When the nodes of a network repeatedly run consensus, in any order, chains never get shorter, no chain appears that nobody had, and once every node has run it as often as the network is wide, all nodes have the same chain, one of the longest there were.", "quantifier": "all networks, chains, addresses, orders of requests, numbers of rounds", "why_tests_cant": "Ranges over all networks and all schedules.", "anchors": ["misc/blockchain.py:Blockchain.resolve_conflicts", "misc/run_blockchain.py:consensus", "misc/run_blockchain.py:full_chain"]}
{"id": "C126", "title": "Comparison of polynomials", "statement": "poly_utils.max(a, b) returns 1 exactly when the polynomial a is at least as big as b: of larger degree, or of the same degree and at least b at the first coefficient from the top in which they differ.", "quantifier": "all pairs of polynomials over Z/p, whatever objects their coefficients are", "why_tests_cant": "A total order on polynomials of all degrees, whose first difference may be at any place and whose coefficients may be objects of several classes.", "anchors": ["starks/poly_utils.py:max"]}
{"id": "C127", "title": "Completeness of the proximity test over a multiplicative subgroup", "statement": "verify_proximity_proof accepts the proof that generate_proximity_proof returns for a polynomial of degree below maxdeg_plus_1, against the Merkle root of its values at the powers of the root of unity, for every bound, every number of spot checks, every domain the transform supports and every excluded multiple.", "quantifier": "all primes, roots of unity, polynomials, degree bounds, excluded multiples, numbers of spot checks, hash functions", "why_tests_cant": "The failing parameters (bounds not divisible by four, many spot checks, orders 3*2^k) lie between the passing ones, and each takes a full run of the prover; the claim is for all of them and every hash.", "anchors": ["starks/fri.py:SmoothSubgroupFRI.generate_proximity_proof", "starks/fri.py:SmoothSubgroupFRI.verify_proximity_proof"]}
{"id": "C128", "title": "Soundness of the proximity test over a multiplicative subgroup", "statement": "verify_proximity_proof accepts no proof for a Merkle root of values that are far from those of every polynomial of degree below maxdeg_plus_1: an accepted proof contains, at every position sampled, consistent openings of the committed vectors, and its last component is the whole last vector and of low degree.", "quantifier": "all primes, roots of unity, committed vectors, degree bounds, proofs an adversary can send, hash functions", "why_tests_cant": "Ranges over all adversarial proofs.", "anchors": ["starks/fri.py:SmoothSubgroupFRI.verify_proximity_proof"]}
{"id": "C129", "title": "Repeated points in an interpolation", "statement": "Interpolating through a list in which a point is repeated is refused: lagrange_interp, lagrange_interp_2, lagrange_interp_4 and multi_interp_4 raise when two xs of a set coincide, rather than return a polynomial that misses a point.", "quantifier": "all fields, all lists of points and values", "why_tests_cant": "All fields and all lists in which some point repeats, at any two places; what is returned in place of an exception looks like a polynomial.", "anchors": ["starks/poly_utils.py:lagrange_interp", "starks/poly_utils.py:lagrange_interp_2", "starks/poly_utils.py:lagrange_interp_4", "starks/poly_utils.py:multi_interp_4", "starks/poly_utils.py:multi_inv"]}
{"id": "C130", "title": "Proofs the prover makes go through compression", "statement": "Every proof of proximity that generate_proximity_proof returns, and the branches of every STARK proof that mk_proof returns, are compressed without an exception and decompress to themselves.", "quantifier": "all primes, computations, polynomials, domains, degree bounds, numbers of spot checks, hash functions", "why_tests_cant": "The proofs are large and their pattern of repeated strings depends on the hash and on the sampled positions.", "anchors": ["starks/compression.py:compress_fri", "starks/compression.py:compress_branches", "starks/fri.py:SmoothSubgroupFRI.generate_proximity_proof", "starks/stark.py:STARK.mk_proof"]}
{"id": "C131", "title": "Rounds and recursion depth", "statement": "The loops and recursions of number theory take a number of steps proportional to the number of bits: gcd and the extended algorithm divide at most twice per bit of the smaller number; x ** n takes one round per bit of n, and in an extension field at most two nested calls per bit; is_a_power_of_2(x) and decompose(x), for x != 0, one per factor of two; the recursive Fourier transform of n values and the proximity prover for degree n nest about log2(n) and log4(n) calls. So no call reaches Python's recursion limit on sizes that fit in memory.", "quantifier": "all integers, exponents n >= 0, fields, lists of values, degree bounds", "why_tests_cant": "A bound on the number of rounds for all sizes; worst cases (consecutive Fibonacci numbers) are rare.", "anchors": ["starks/euclidean.py:gcd", "starks/euclidean.py:extended_euclidean_algorithm", "starks/numbertype.py:DomainElement.__pow__", "starks/finitefield.py:Fq.__pow__", "starks/utils.py:is_a_power_of_2", "misc/primality.py:decompose", "starks/fft.py:_fft", "starks/fri.py:SmoothSubgroupFRI.generate_proximity_proof"]}
{"id": "C132", "title": "Spot checks hit bad positions with the expected probability", "statement": "If blake behaves as a random function, the count positions get_pseudorandom_indices draws from a random 32-byte root all miss a set of bad positions with at most the probability (1 - bad/size)^count of independent uniform positions, up to the rounding of 2^32 by the size and a negligible probability that the chain of hashes repeats.", "quantifier": "all sizes below 2^24, counts, excluded factors dividing the size, sets of bad positions; the probability is over all roots and all hash functions", "why_tests_cant": "The claim is about the fraction of all hash functions.", "anchors": ["starks/utils.py:get_pseudorandom_indices"]}
{"id": "C133", "title": "A combination of low degree means parts of low degree", "statement": "If one of the trace, remainder or boundary polynomials has degree d or more, the pseudorandom linear combination the verifier tests has degree d or more except with a probability of about 2/p over the hash function, for every width the combination supports.", "quantifier": "all primes, lists of polynomials, widths up to 9, degree parameters, entropies; the probability is over all values of the hashes", "why_tests_cant": "The claim is about the fraction of all hash functions, for all polynomials a dishonest prover may choose.", "anchors": ["starks/stark.py:get_pseudorandom_ks", "starks/stark.py:compute_pseudorandom_linear_combination", "starks/stark.py:compute_pseudorandom_linear_combination_1d"]}
{"id": "C134", "title": "A node keeps working whatever it is sent", "statement": "Whatever JSON values clients send and peers answer, a node that has served any history of requests still serves: a transaction with the three keys is recorded and confirmed, mining appends one block with one reward, a request that is refused or raises changes nothing, and a peer's chain is adopted only if it is a longer list of linked blocks.", "quantifier": "all histories of requests, all JSON values as bodies and answers, all hash functions, all numbers of peers", "why_tests_cant": "Ranges over all JSON values a stranger can send, in any order.", "anchors": ["misc/blockchain.py:Blockchain.resolve_conflicts", "misc/blockchain.py:Blockchain.valid_chain", "misc/blockchain.py:Blockchain.new_transaction", "misc/run_blockchain.py:mine", "misc/run_blockchain.py:new_transaction", "misc/run_blockchain.py:register_nodes"]}
{"id": "C135", "title": "Verification is cheap", "statement": "Verifying a proof, also a hostile one, calls the hash function at most as often as there are byte strings in the proof, plus one call per eight spot checks of each layer; of the witness it uses only the last entry of each column; and for a generated proof about 2^k points the number of calls grows with the square of k, not with the number of points.", "quantifier": "all proofs (honest or not), hash functions, roots, domains, degree bounds, numbers of spot checks; all computations and executions for the generated proofs", "why_tests_cant": "A bound on the work for every proof a stranger can send, and growth with the size, are not settled by samples.", "anchors": ["starks/fri.py:SmoothSubgroupFRI.verify_proximity_proof", "starks/stark.py:STARK.verify_proof", "starks/merkle_tree.py:verify_branch", "starks/utils.py:get_pseudorandom_indices"]}
{"id": "C136", "title": "Solving a system leaves it unchanged", "statement": "gauss(M, row, field) returns the solution and leaves the caller's nested list M as it was: solving the same list again gives the same vector, and a solution can be checked by multiplying it with M.", "quantifier": "all numbers of rows, all matrices and right-hand sides of constants over any field, all outcomes of the identity tests in the pivot search", "why_tests_cant": "Whether the caller's list changes depends on the pivots and on shared rows; the returned vector alone does not show it.", "anchors": ["starks/poly_utils.py:gauss", "starks/poly_utils.py:construct_affine_vanishing_polynomial_Moore"]}
{"id": "C137", "title": "Cost of inversion, interpolation and transforms", "statement": "The functions written for speed are fast: multi_inv, and the interpolation functions built on it, use one field inversion however many values they invert; the Fourier transform of n values, and the product of polynomials by way of it, multiply about n\u00b7log2(n)/2 times instead of n\u00b7n times.", "quantifier": "all fields, all lists of values and points, all roots of unity of order 2^k or 3\u00b72^k, all lengths", "why_tests_cant": "Exact operation counts for every length are not settled by timing samples.", "anchors": ["starks/poly_utils.py:multi_inv", "starks/poly_utils.py:multi_interp_4", "starks/poly_utils.py:lagrange_interp", "starks/poly_utils.py:lagrange_interp_4", "starks/poly_utils.py:lagrange_interp_2", "starks/polynomial.py:Polynomial.__divmod__", "starks/fft.py:fft_1d", "starks/fft.py:mul_polys"]}
{"id": "C138", "title": "Proving costs a linear number of hash calls", "statement": "Committing to n items calls the hash function n - 1 times; proving that a polynomial on 2^k points has low degree calls it at most 2*2^k times plus once per eight spot checks of the first layer, all layers together (and never for a degree bound of 16 or less); and the whole proof about an execution of 2^a steps, extended 2^b times, calls it at most 4*2^(a+b) + width + 17 times.", "quantifier": "all hash functions with 32-byte results, lists of items, polynomials, evaluation points of order 2^k, degree bounds, spot check counts, computations, executions and sizes", "why_tests_cant": "A count for all sizes and hash functions, as an upper bound on the worst case and an exact number for trees.", "anchors": ["starks/merkle_tree.py: merkelize, merkelize_polynomial_evaluations", "starks/fri.py: SmoothSubgroupFRI.generate_proximity_proof", "starks/stark.py: STARK.mk_proof, get_pseudorandom_ks, compute_merkle_spot_checks", "starks/utils.py: get_pseudorandom_indices"]}
{"id": "C139", "title": "Decompressing data from an untrusted sender", "statement": "Whatever list of byte strings decompress_fri or decompress_branches is given, it ends with a result or with IndexError or AssertionError; the result written out with its separators has exactly as many entries as the data, each of which is an entry of the data or the target of a two-byte reference in its place; the result is at most a fixed multiple of the data in size; different data give different results; and the bytes that bin_length counts determine the data.", "quantifier": "all lists of byte strings whatsoever", "why_tests_cant": "The data come from an untrusted sender: any list of byte strings.", "anchors": ["starks/compression.py: decompress_fri, decompress_branches, bin_length, compress_fri"]}
{"id": "C140", "title": "The binary fields of the tests and tutorials", "statement": "The polynomials over Z/2 that the tests and tutorials use and describe as primitive, x^2+x+1, x^4+x+1, x^9+x+1, x^17+x^3+1 and x^64+x^4+x^3+x+1, are accepted as moduli of a field of 2^m elements, each non-zero element of which is X**k for exactly one k below 2^m-1; is_primitive confirms it, answers False for the others, and needs no polynomials much longer than the one it is asked about.", "quantifier": "all elements of the fields, all exponents, any correct factorisation", "why_tests_cant": "The field of the tutorial has 2^64 elements.", "anchors": ["starks/poly_utils.py: is_irreducible, is_primitive", "starks/finitefield.py: FiniteField", "starks/test/test_poly_utils.py: test_is_primitive (commented out)", "tutorials/Binary Finite Fields Pt 1.ipynb"]}
{"id": "C141", "title": "What the verifier of the 3-coloring protocol learns", "statement": "In a round of the 3-coloring protocol the verifier learns nothing about the coloring beyond two different colors in a random order: the colors opened on the chosen edge are each pair of different colors with equal probability, everything the verifier receives has the same distribution for any two proper colorings, and reveal_colors opens one edge per commitment and nothing but edges.", "quantifier": "all graphs, proper colorings, edges, permutations drawn, secrets drawn, commitment functions, queries", "why_tests_cant": "Distributions over all draws and all colorings, and every sequence of queries a curious verifier can make.", "anchors": ["misc/zkp_3_coloring.py: ZK3ColProver.commit_to_coloring, ZK3ColProver.reveal_colors", "misc/commitment.py: BBSIntCommitmentScheme.commit, BBSIntCommitmentVerifier.decode"]}
{"id": "C142", "title": "Proofs are short", "statement": "Whatever compress_fri or compress_branches returns, bin_length of it counts every different entry of the proof once and two bytes for each repetition, so compressing never makes a proof longer. The proof of proximity for 2^k points compresses to a size that depends only on the parameters and grows with the square of k, and the whole proof about an execution of 2^a steps extended 2^b times to a number of bytes quadratic in a+b and linear in the number of registers, whatever the execution.", "quantifier": "all proofs and lists of branches; all polynomials, degree bounds, spot check counts, computations, executions, hash functions with 32-byte results", "why_tests_cant": "A bound for all proofs and all patterns of repetition, for every number of points and spot checks.", "anchors": ["starks/compression.py: compress_fri, compress_branches, bin_length", "starks/fri.py: SmoothSubgroupFRI.generate_proximity_proof", "starks/stark.py: STARK.mk_proof"]}
{"id": "C143", "title": "Sessions of the 3-coloring protocol", "statement": "When one prover object and one verifier object are used for any sequence of calls in any order, reveal_colors opens the most recent commit_to_coloring, and only edges. With a proper coloring, the opening of the edge the verifier chose last is accepted if no new commitment was made in between, and rejected if one was made with secrets that the one-way function tells apart. reveal_colors before any commitment raises TypeError, accepts before choose_edge raises AttributeError, and a commit_to_coloring that raises KeyError for a vertex without color still replaces the secrets.", "quantifier": "all sequences of calls with any arguments, graphs, colorings, permutations, secrets, one-way functions and hardcore predicates", "why_tests_cant": "The order of the calls of two stateful objects is unbounded; tests only run the honest order once.", "anchors": ["misc/zkp_3_coloring.py: ZK3ColProver, ZK3ColVerifier"]}
{"id": "C144", "title": "One commitment object used several times", "statement": "When one scheme object commits to several integers in turn, as the demonstration in commitment.py does, every commitment opens to its own integer under the secret of the object and is verified, and until the secret is revealed the commitments tell nothing about the integers.", "quantifier": "all sequences of integers, secrets, one-way functions and predicates; all draws of the secrets", "why_tests_cant": "Ranges over all sequences of calls on one object and over the distribution of its secrets.", "anchors": ["misc/commitment.py: BBSIntCommitmentScheme.commit, CommitmentScheme.reveal, BBSIntCommitmentVerifier.decode, BBSIntCommitmentVerifier.verify"]}
{"id": "C145", "title": "The isomorphism is a secret of the prover", "statement": "The prover of the isomorphism protocol is constructed with two graphs and a secret list; the verifier with the two graphs. What the verifier sees does not let anyone compute the secret or take the prover's place in a run. (False of the code: graphs are compared as lists of edges, so a prover that is accepted has an isomorphism that carries the first list of edges to the second position by position. The images of all vertices that are the end of an edge can be read off the two lists, and a prover constructed with the list so obtained is accepted for every draw and both challenges. Only the images of isolated vertices stay secret: no message of any run depends on them.)", "quantifier": "all pairs of graphs and secrets for which runs are accepted, all permutations drawn, both challenges", "why_tests_cant": "It is about what can be computed from a transcript, for all graphs and secrets, not about one run.", "anchors": ["misc/zero_knowledge.py:ZKProver", "misc/zero_knowledge.py:ZKVerifier.accepts", "misc/zero_knowledge.py:run_protocol", "misc/zero_knowledge.py:apply_isomorphism"]}
{"id": "C146", "title": "A false execution is caught by the spot checks", "statement": "A prover commits, in the first root of a proof, to the values of polynomials of bounded degree before the second root is known. If their values are not an execution from the boundary input to the claimed output, and the second root is a random string and the hash of 32-byte strings a random function, then verify_proof accepts with at most the probability that spot_check_security_factor random positions, of those that are not multiples of the extension factor, all fall among the few at which the checked relations hold by chance. With an extension factor of at least 4 deg (deg + 1) this is below 2^-spot_check_security_factor, whatever the rest of the proof and the proximity test are.", "quantifier": "all computations, false claims, committed polynomials, proofs, proximity tests; the probability is over all second roots and all hash functions", "why_tests_cant": "A probability over all hash functions, for every possible cheating proof.", "anchors": ["starks/stark.py: STARK.verify_proof, STARK.verify_proof_at_position", "starks/utils.py: get_pseudorandom_indices", "starks/merkle_tree.py: verify_branch"]}
{"id": "C147", "title": "The order of the terms of a multivariate polynomial is not observable", "statement": "Whatever the order in which the terms of dictionaries are written and in which additions walk through their set of monomials, an expression in multivariate polynomials gives results that compare equal and that len, is_zero, degree, [], iteration and evaluation do not tell apart. Iteration lists the non-zero terms of the polynomial the expression denotes, each once, in strictly increasing order of exponent tuples; len counts them; [] gives the coefficient of any tuple and zero for every other; the polynomial built from the terms iterated over is the same one.", "quantifier": "all expressions built from dictionaries with +, -, unary -, * and non-negative powers, over every ring; all orders of every dictionary and of every set", "why_tests_cant": "The order of a set of tuples is left open by the language and depends on the history of the set; a test sees one order.", "anchors": ["starks/multivariate_polynomial.py: MultivariatePolynomial.factory, __init__, __len__, __iter__, __getitem__, __add__, __mul__, __eq__, __call__, degree"]}
{"id": "C148", "title": "Binary fields compute with words", "statement": "The elements of FiniteField(2, m) are the words of m bits, bit i being the coefficient of x^i, as the tutorial \"Binary Finite Fields Pt 2\" says: + and - are both the exclusive or of the words and unary - changes nothing; * is the product without carries, the exclusive or of shifted copies, reduced by shifted copies of the word of the modulus; a / b is the only word whose product with b is a.", "quantifier": "all moduli over Z/2 of any degree m, all elements", "why_tests_cant": "There are 2^m elements for every m; tests multiply a few.", "anchors": ["starks/finitefield.py: FiniteField.__add__, __sub__, __neg__, __mul__, inverse", "starks/polynomial.py: Polynomial.__mul__, __divmod__", "tutorials/Binary Finite Fields Pt 2.ipynb"]}
{"id": "C149", "title": "No prover of bounded means can change a committed value", "statement": "A prover is any program that calls the hash function q times at most, each call depending on the answers before, and then shows openings of Merkle roots. When the hash function is random, the probability that two of r openings with branches of k + 1 strings are for the same root and position, are both accepted by verify_branch, and give different leaves of the same length, is at most m (m - 1) / 2^257 with m = q + r k. When the root is that of a tree merkelize built over 2^k items, and the prover is given the whole tree, the probability that they open a position to anything else than the item's encoding, of the same length, is at most m (m - 1) / 2^257 with m = 2^k - 1 + q + k.", "quantifier": "all adaptive provers, all q, r, k, all lists of items; the probability is over all hash functions on strings of at most n bytes, for every n", "why_tests_cant": "A probability over all hash functions, for every possible cheating program.", "anchors": ["starks/merkle_tree.py: merkelize, mk_branch, verify_branch"]}
{"id": "C150", "title": "The hash of a block determines the block", "statement": "hash writes a block as JSON text before taking its SHA-256. Two blocks, whatever JSON values they are made of, have the same text exactly when they are the same value up to the order of the keys of dictionaries; so the hashes of different blocks differ unless SHA-256 collides. Likewise the string valid_proof takes the SHA-256 of determines the last proof, the proof and the last hash. (The second part is false of the code: the proofs 1 and 23 give the same string as 12 and 3. The string determines the hash and the two proofs written one after the other.)", "quantifier": "all JSON values of any depth with any strings and keys; all texts of numbers that are different for different numbers; all hash functions", "why_tests_cant": "Ranges over all JSON values, nested to any depth.", "anchors": ["misc/blockchain.py: Blockchain.hash, Blockchain.valid_proof"]}
{"id": "C151", "title": "The hash of the last block commits to the whole chain", "statement": "If valid_chain accepts two chains whose last blocks have the same hash, then the chains are the same, block by block, unless two blocks in them collide under SHA-256; and a program that calls a random hash function q times finds two such chains that are not the same, with r blocks together, with probability at most m (m - 1) / 2^257, m = q + r. (False of the code as it stands: valid_chain does not look at the first block, so the end of a valid chain is valid and has the same last hash. True when the first blocks do not carry a 64-character text as previous_hash, as those nodes make; and without that condition one chain is the end of the other.)", "quantifier": "all pairs of chains of any length of any JSON values, all adaptive programs; the probability is over all hash functions on strings of at most n bytes, for every n", "why_tests_cant": "Ranges over all chains; a probability over all hash functions, for every possible program.", "anchors": ["misc/blockchain.py: Blockchain.hash, Blockchain.valid_chain"]}
{"id": "C152", "title": "Proof of work costs what it says", "statement": "With a random hash function, each number proof_of_work tries after a block is a valid proof with probability 1/65536, independently of the others: the probability that none of the first t is valid is (65535/65536)^t, and that it returns k is (65535/65536)^k / 65536. Nobody can do better by more than the bound for any search: a program that calls the hash function q times and then shows a chain that valid_chain accepts, with k blocks after a first block that does not carry a hash, succeeds with probability at most binomial(m, k) / 65536^k + m (m - 1) / 2^257, where m = q + 2 k + 1.", "quantifier": "all last blocks, all numbers of attempts, all adaptive programs, all q and k; the probability is over all hash functions on strings of at most n bytes, for every n", "why_tests_cant": "A probability over all hash functions, for every possible program.", "anchors": ["misc/blockchain.py: Blockchain.proof_of_work, Blockchain.valid_proof, Blockchain.valid_chain"]}
{"id": "C153", "title": "A refused proof is refused with an AssertionError, and every verification ends", "statement": "Whatever it is given as a proof, a verifier comes to an end, returns True or raises AssertionError; it never returns False and never fails in another way. (False of the code: proofs of the wrong shape make verify_proximity_proof raise IndexError, ZeroDivisionError or OverflowError, and verify_proof IndexError. True of all proofs that have as many layers, branches and values as the provers make, whatever their bytes; and for all proofs these four are the only exceptions, and verification ends.)", "quantifier": "all proofs, roots, witnesses and boundaries; all degree bounds, excluded steps and numbers of spot checks; all computations with valid parameters; all hash functions with 32-byte values", "why_tests_cant": "Ranges over everything a dishonest prover may send, well-formed or not.", "anchors": ["starks/fri.py: SmoothSubgroupFRI.verify_proximity_proof", "starks/stark.py: STARK.verify_proof, STARK.verify_proof_at_position", "starks/merkle_tree.py: verify_branch"]}
{"id": "C154", "title": "Finding the secret of a commitment is as hard as factoring the modulus", "statement": "The security of the generator rests on factoring, says its documentation. Whatever program is used to extract square roots modulo a product of two different primes, exactly half of the numbers on whose square it succeeds give away a factor of the modulus; and whatever program is used to find the secret behind a bit commitment, there are at most twice as many draws whose secret it finds as there are draws that make it give away a factor. (False of the commitments of the code: the number a secret is the square of has security_parameter random bits, by default and in the protocol for three colours always 512, whatever the size of the modulus; with a modulus of four times as many bits the secret is the integer square root of the commitment, and the first message of the protocol gives away the colouring. True when the number is drawn uniformly among those without common factor with the modulus.)", "quantifier": "all products of two different primes (3 modulo 4 for commitments), all programs, both bits, all predicates; all graphs, proper colourings, permutations and draws", "why_tests_cant": "Ranges over all programs and all moduli; compares numbers of draws.", "anchors": ["misc/blum_blum_shub.py: blum_blum_shub, make_modulus", "misc/commitment.py: BBSBitCommitmentScheme.generateSecret, BBSBitCommitmentScheme.commit", "misc/zkp_3_coloring.py: ZK3ColProver.commit_to_coloring, run_protocol"]}
{"id": "C155", "title": "The search for a modulus ends and finds primes, up to a small probability", "statement": "make_modulus returns the product of two primes that are 3 modulo 4, except with the probability that the primality tests err: with random bases, and whatever the candidates are, the probability that find_good_prime returns a number that is not a prime among the first t candidates is at most t / 4^100, and that make_modulus returns anything but a product of two such primes at most 2 t / 4^100. With random candidates of n bits, and whatever the bases are, the probability that find_good_prime has not returned after t candidates is at most (1 - d)^t, where d, positive for n >= 2, is the proportion of primes that are 3 modulo 4 among the numbers below 2^n.", "quantifier": "all numbers of candidates t, all sequences of candidates, all n; the probabilities are over all bases between 2 and the candidate minus 2, and over all sequences of candidates", "why_tests_cant": "A probability over all random draws, for every number of candidates.", "anchors": ["misc/blum_blum_shub.py: find_good_prime, make_modulus, good_prime", "misc/primality.py: probablyPrime"]}
{"id": "C156", "title": "Changing a block of a chain takes the work of the blocks on top of it", "statement": "Once a chain is known, nobody can change a block of it without finding new proofs of work for that block and all those after it: if valid_chain accepts two chains that differ in block j, none of the proofs of work of the first chain serves for block j or a later block of the second, and with a random hash function a program that knows the chain and everything hashed so far, and calls the hash function q times more, gives a chain that valid_chain accepts, that differs in some block and has k blocks after it, with probability at most binomial(m, k) / 65536^k + (2 s m + m (m - 1)) / 2^257, where s strings were hashed before, r is the length of the chain and m = q + 2 (r + k). (False of the block itself: a proof of work covers the block before the one that carries it, so the last block of a chain, with the transactions in it, can be replaced without any work. True of all blocks after the one that is changed.)", "quantifier": "all chains, all pairs of chains, all programs, all numbers of calls, all pasts in which the chain was made; the probability is over all hash functions that agree with the past", "why_tests_cant": "A statement about all programs that try to forge a chain, and a probability over all hash functions.", "anchors": ["misc/blockchain.py: valid_chain, valid_proof, hash", "misc/run_blockchain.py: mine"]}
{"id": "C157", "title": "A transaction a node has accepted is not lost or repeated", "statement": "In a network of nodes that all run this code, a transaction that a node has accepted (by /transactions/new, or as the reward of /mine) is afterwards pending at that node or in exactly one block of its chain, whatever transactions are submitted, blocks mined, nodes registered and chains compared at any nodes. (False: /nodes/resolve replaces the chain and neither returns the transactions of the old blocks to the pool nor removes those of the new blocks from it. True as long as the chains that are taken over hold the transactions of those they replace, as far as loss is concerned, and in full if only one node mines.)", "quantifier": "all hash functions and proof-of-work predicates for which mining ends, all networks, all histories of requests to their nodes, all start times", "why_tests_cant": "Ranges over all histories of requests to any number of nodes.", "anchors": ["misc/blockchain.py: resolve_conflicts, new_block, new_transaction", "misc/run_blockchain.py: mine, new_transaction, consensus"]}
{"id": "C158", "title": "Every block creates one coin, and nobody spends more than they have", "statement": "The sender 0 signifies that a node has mined a new coin. In the chain of a node, whatever requests it has served, every block but the first creates exactly one coin, for the node that mined it, so that there are as many coins as blocks less one, and no other account has a negative balance. (False: submissions from the sender 0 and payments of any amount between any accounts are accepted, chains taken over from peers may hold any payments, and two /mine requests in progress at the same time can leave a block with two coins and one with none. The number of coins is right for a node that asks no peers and to which no payments from 0 are submitted.)", "quantifier": "all hash functions and proof-of-work predicates, all histories of requests, all accounts and amounts, all lists of payments", "why_tests_cant": "Ranges over all histories of requests and all chains a peer may send.", "anchors": ["misc/blockchain.py: new_transaction, valid_chain, resolve_conflicts", "misc/run_blockchain.py: mine, new_transaction"]}
{"id": "C159", "title": "Mining and consensus at the same time", "statement": "Under every interleaving of /mine, /transactions/new and /nodes/resolve requests with peers that answer truthfully, the chain of a node is valid whenever no request is in progress, and never becomes shorter. (False: a /nodes/resolve request compares with the length the chain had when it began and replaces a chain that has become longer meanwhile, and a /mine request during which the chain is replaced appends a block that belongs to the old one, which makes the chain invalid with a single miner. True if no two of these requests overlap; and a chain that is taken over is valid whatever has happened before.)", "quantifier": "all hash functions and proof-of-work predicates, all schedules of any number of requests, all answers of peers", "why_tests_cant": "Ranges over all schedules of concurrent requests and all answers.", "anchors": ["misc/blockchain.py: resolve_conflicts, new_block, new_transaction", "misc/run_blockchain.py: mine, consensus"]}
{"id": "C160", "title": "The order in which peers are asked does not matter", "statement": "What resolving conflicts ends with, the value returned and the chain the node then has, does not depend on the order in which its peers are asked (they are kept in a set, whose order differs from one process to the next), and a peer that misbehaves does the same harm wherever it comes.", "quantifier": "all nodes, hash functions, lists of answers and permutations of them", "why_tests_cant": "Ranges over all lists of answers and all their orders.", "anchors": ["misc/blockchain.py:Blockchain.resolve_conflicts", "misc/blockchain.py:Blockchain.register_node"]}
{"id": "C161", "title": "Boundary constraints mean what they say", "statement": "A boundary constraint is a triple of a step, a register and a value, and says that the register has the value at the step. With a list of constraints given to mk_proof and verify_proof, the proof of an execution is accepted exactly if the constraints hold of the execution, whatever their order. (False: steps and registers are never read. The value in place d of the list is taken as the input of register d, and what comes after place width - 1 is ignored; so constraints that do not hold are accepted, and constraints that do hold are refused in another order. Exactly the values in the first width places are enforced.)", "quantifier": "all computations, executions, lists of constraints, hash functions, proximity tests and proofs", "why_tests_cant": "Ranges over all executions and all lists of constraints.", "anchors": ["starks/stark.py:construct_boundary_polynomials", "starks/stark.py:STARK.mk_proof", "starks/stark.py:STARK.verify_proof_at_position", "starks/air.py:AIR.generate_boundary_constraints"]}
{"id": "C162", "title": "A proof proves one statement", "statement": "verify_proof does not accept the same proof for two different statements, a statement being the inputs and the outputs of all registers, whatever the hash function and the proximity test. (True if two different positions are sampled, which with a random root and the default 80 spot checks fails with probability at most 2^-78, and of two statements with the same inputs or the same outputs in any case. False if only one position is sampled, as with spot_check_security_factor = 1: an accepted proof is then accepted with every other list of inputs, for some outputs.)", "quantifier": "all proofs (honest or not), statements, hash functions, proximity tests and parameters", "why_tests_cant": "Ranges over all proofs a prover may send and all pairs of statements.", "anchors": ["starks/stark.py:STARK.verify_proof", "starks/stark.py:STARK.verify_proof_at_position"]}
{"id": "C163", "title": "A long computation can be run in pieces", "statement": "get_computational_trace(inp, m+k, width, step_polys) is the trace of the first m steps followed by the trace, without its first state, of k+1 steps from the state the first piece ends with, with the same output, and it raises exactly if one of the pieces does. If a state occurs twice in a trace, so does everything that follows it; over a field of q elements this happens within the first q^width + 1 states.", "quantifier": "all fields, inputs, step polynomials, widths, m >= 1, k >= 0", "why_tests_cant": "The number of steps and the place of the cut are unbounded, and a cycle has up to q^width states, far more than any run shows.", "anchors": ["starks/air.py:get_computational_trace"]}
{"id": "C164", "title": "A Merkle root stands for one list", "statement": "If merkelize gives two lists the same root, their items have the same encodings, or the hash function has a collision among the strings hashed for the two trees. (True of lists of the same length with encodings of the same sizes, in particular of lists of ints. False in general, for every hash function: the nodes one level above the items of a list are a list of half the length with the same root, whose items verify_branch accepts with its shorter proofs; and items of different sizes can be cut differently.)", "quantifier": "all hash functions, all pairs of lists", "why_tests_cant": "Ranges over pairs of lists chosen by an adversary, and the conclusion is a collision that no test with a good hash function exhibits.", "anchors": ["starks/merkle_tree.py:merkelize", "starks/merkle_tree.py:verify_branch"]}
{"id": "C165", "title": "A proof cannot be altered", "statement": "Whoever sees an accepted STARK proof or proof of proximity cannot make a different accepted proof with the same Merkle roots out of it without finding a hash collision. (True of the branches that are read, if the sizes of the byte strings in them are the same. False otherwise, for every hash function: branches nobody reads can be added, and a byte can be moved between the first two strings of a branch, as verify_branch does not check sizes, with the same total number of bytes; the strings of the last component of a proof of proximity can be preceded by zeros.)", "quantifier": "all hash functions, all accepted proofs, all statements", "why_tests_cant": "Ranges over everything an adversary can make out of a proof; a test sees only the alterations its author thought of.", "anchors": ["starks/stark.py:STARK.verify_proof", "starks/merkle_tree.py:verify_branch", "starks/fri.py:SmoothSubgroupFRI.verify_proximity_proof"]}
{"id": "C166", "title": "A proof proves one computation", "statement": "A STARK proof accepted for one list of step polynomials is not accepted for another. (The step polynomials are not hashed into the proof. A proof is accepted for both exactly if both lead to the same next state from every opened state and the proximity test accepts both degrees; so never if they agree nowhere, and with a small probability if the roots are random and they disagree at many committed states. False otherwise: with one spot check a false claim about another computation is accepted.)", "quantifier": "all hash functions, parameters, pairs of lists of step polynomials, statements and proofs", "why_tests_cant": "Ranges over pairs of computations and over all proofs an adversary might make for them; a test tries the proofs of the honest prover.", "anchors": ["starks/stark.py:STARK.verify_proof", "starks/stark.py:STARK.verify_proof_at_position"]}
{"id": "C167", "title": "Committed values differ almost everywhere", "statement": "The values the STARK prover commits to for a column of the trace, the transform at G2 of the inverse transform at G1, contain the column in every extension_factor-th place; those of two different columns of n entries agree in fewer than n of the n*extension_factor places; any n of them determine the column, and lagrange_interp recovers its polynomial from them; fewer do not determine it.", "quantifier": "all fields of prime characteristic, all admissible sizes, all columns, all sets of positions", "why_tests_cant": "Ranges over all pairs of columns, and the number of sets of positions is exponential in the size of the domain.", "anchors": ["starks/fft.py:NonBinaryFFT.fft", "starks/fft.py:NonBinaryFFT.inv_fft", "starks/stark.py:construct_trace_polynomials", "starks/poly_utils.py:lagrange_interp"]}
{"id": "C168", "title": "Values add, multiply and rotate as polynomials do", "statement": "For polynomials of degree below the order n of the root of unity, the list fft returns for a sum, a difference or a negative is the sum, difference or negative of the lists, item by item; the lists of two different polynomials differ; the list of f(w^j x) is that of f rotated by j places; and inv_fft of the items' products is the product of the polynomials if its degree is below n, and the product modulo x^n - 1 otherwise.", "quantifier": "all fields, roots of unity of order 2^k or 3*2^k, pairs of polynomials of degree below the order, all rotations", "why_tests_cant": "The laws relate the transforms of every pair of polynomials over every field and for every size; the recursion ends in blocks of one to four values, a separate case of the code.", "anchors": ["starks/fft.py:NonBinaryFFT.fft", "starks/fft.py:NonBinaryFFT.inv_fft", "starks/fft.py:fft_1d"]}
{"id": "C169", "title": "Laws of interpolation", "statement": "lagrange_interp returns the same polynomial whatever the order in which the points are given; it is linear in the values: those of ys + c*zs give the polynomial of ys plus c times that of zs; the values of a polynomial at more different points than its degree give that polynomial back; and further points on the interpolant, different from the others, change nothing.", "quantifier": "all fields, all lists of points and values (repeated points included for the order and for linearity), all scalars", "why_tests_cant": "The laws compare the results for any number of points, in all their orders, over every field.", "anchors": ["starks/poly_utils.py:lagrange_interp"]}
{"id": "C170", "title": "The vanishing polynomial of a subspace is additive", "statement": "For scalars in Z/p, the polynomial construct_affine_vanishing_polynomial returns for a space with shift 0 satisfies q(x+y) = q(x)+q(y) and q(n*x) = n*q(x) for all elements of the field; the one for the space shifted by s is q - q(s); of its p^d + 1 coefficients only those at the powers of p, and the constant one, can differ from zero; one more basis element b turns q into q^p - q(b)^(p-1)*q; and the values of q on a second affine space, in the order of its iteration, are the affine space spanned by the values of q at its basis and shifted by the value at its shift. Two points have the same value exactly when they differ by an element of the space.", "quantifier": "all primes, all vector spaces over Z/p with an additive map into a field of characteristic p, all bases (dependent ones included), all shifts, all points", "why_tests_cant": "Ranges over all bases of any length in all extension fields, and over all pairs of points; the polynomial of a space of dimension d already has p^d roots.", "anchors": ["starks/poly_utils.py:construct_affine_vanishing_polynomial", "starks/reedsolomon.py:AffineSpace"]}
{"id": "C171", "title": "A vanishing polynomial stands for its space", "statement": "For scalars in Z/p, construct_affine_vanishing_polynomial returns the same polynomial for two affine spaces with the same elements, whatever their independent bases and their shifts; conversely, if different elements stay different in the field, equal polynomials mean equal spaces. The polynomial of a space is the product of those of the p cosets of the space without its first basis element. For an independent basis a polynomial is zero on the whole space exactly when divmod by the vanishing polynomial leaves remainder zero; for a dependent basis the vanishing polynomial is a p-th power.", "quantifier": "all primes, all vector spaces over Z/p mapped into a field, all pairs of bases and shifts, all polynomials divided", "why_tests_cant": "Ranges over all pairs of bases of the same space, of any dimension, and over all polynomials that vanish on it.", "anchors": ["starks/poly_utils.py:construct_affine_vanishing_polynomial", "starks/reedsolomon.py:AffineSpace", "starks/polynomial.py:__divmod__"]}
{"id": "C172", "title": "Sums over an affine space", "statement": "For an affine space over Z/p with an independent basis, whose elements stay different in the field, the values of a polynomial with fewer coefficients than the space has elements add up to 0; with exactly as many coefficients they add up to the last one times the coefficient at 1 of the vanishing polynomial, which is not 0. Hence a list of values on the space, in the order of its iteration, is interpolated by lagrange_interp with at most k coefficients exactly when its products with the first size - k powers of the elements add up to 0. For a dependent basis any function, added up over the items, gives 0. Two different polynomials with at most k coefficients have the same value at fewer than k items.", "quantifier": "all primes, all vector spaces over Z/p with an additive injective map into a field of characteristic p, all independent bases, all shifts, all polynomials and all lists of values, all k", "why_tests_cant": "Ranges over all spaces and all lists of values on them; the number of lists of values alone is the size of the field to the size of the space.", "anchors": ["starks/reedsolomon.py:AffineSpace", "starks/reedsolomon.py:ReedSolomonCode", "starks/poly_utils.py:construct_affine_vanishing_polynomial", "starks/poly_utils.py:lagrange_interp", "starks/polynomial.py:__call__"]}
{"id": "C173", "title": "Parity checks of values at the powers of a root", "statement": "For a root of unity w of order n = 2^k or 3*2^k: the values fft returns for a polynomial of degree below n add up to n times its constant coefficient; n times the coefficient at j of what inv_fft returns is the sum of the i-th value times w^((n-j)*i); hence n values are those of a polynomial with at most m coefficients, the one inv_fft returns, exactly when the sums of the i-th value times w^(j*i) are 0 for j = 1, ..., n-m.", "quantifier": "all fields of prime characteristic, all admissible sizes, all lists of n values, all m up to n", "why_tests_cant": "Ranges over all lists of values over every field and for every size; the recursion ends in blocks of one to four values, a separate case of the code.", "anchors": ["starks/fft.py:NonBinaryFFT.fft", "starks/fft.py:NonBinaryFFT.inv_fft", "starks/fft.py:fft_1d"]}
