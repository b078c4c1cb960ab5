# Formal model of computablelabs/starks in Lean 4 — design

## Conventions

* The code is never run; every definition of the model cites the Python file and lines it transcribes.
* `Verif/Py.lean` — Python primitives: exceptions as values (`Except PyErr`), floor `//`/`%` on unbounded
  `Int`, bytes as `List UInt8`, big-endian `int.from_bytes` / `int.to_bytes` with `OverflowError`.
* `Verif/Model/*.lean` — one file per Python module (or part of one), function by function, branch by branch. Only definitions.
* `Verif/Spec/*.lean` — the small independent specifications the statements use, where Mathlib does not
  already have the notion.
* `Verif/Proofs/*.lean` — helper lemmas.
* `Verif/Props/*.lean` — the property theorems (`Cnn_…`), beside each a non-vacuity `example` on a concrete case.
* `Verif/Conformance/*.lean` — the assertions of the repository's own unit tests (`starks/test/*.py`, `misc/test_*.py`),
  transcribed to the model and evaluated by the kernel. They are tests of the model's fidelity, not proofs, and no claim rests
  on them. Left out: tests over the 256-bit modulus that need thousands of operations, tests of random generation, and the
  affine FRI test (its success depends on a random draw, C96). The two tests of `test_apr.py` pass 7 and 3 steps, which
  `air.py:99` rejects; the model reproduces that failure.
* A `while` loop or an unbounded recursion takes explicit fuel and yields `PyErr.diverge` when it runs out.
  Either the wrapper computes the fuel from the input and a theorem shows that it never runs out (so the loop
  terminates), or the theorem quantifies over the fuel ("for all large enough fuel" = terminates; "for every
  fuel" = never returns).
* Field elements. Generic algorithms (polynomials, interpolation, FFT, AIR, STARK) are modelled over an arbitrary
  Mathlib `Field K` (or `CommRing R` where the code needs no division) with decidable equality: the Python
  operators `+ - * / ==` on elements are the field's operations, and dividing by zero raises. That the two element
  types the library offers (`IntegersModP(p)`, `FiniteField(p,m)`) really are fields *with the operations the code
  implements* is not assumed: `Zp p` and `Fq` are modelled operation by operation and proved to be fields (C01, C02,
  C12, C13), so every generic theorem applies to them.
* Polynomials are the `coefficients` list (lowest degree first), exactly the Python attribute; statements relate it to
  Mathlib's `Polynomial`. Multivariate polynomials are the dictionary, related to `MvPolynomial`.
* The hash functions `blake2s`, `sha256`, `sha384` are arbitrary functions (a parameter), of 32-byte output where the property
  needs it. Randomness is an arbitrary stream/choice parameter, and so are the answers of sympy, the clock and the network.
* Dynamic typing: the automatic casts of ints 0/1 and field elements done by `typecheck` are modelled as the
  corresponding ring coercions. Printing and timing are dropped.
* Properties that the code violates are kept at full strength in `properties.jsonl`; the manifest then lists the
  `…_partial` theorem and the `…_refuted` theorem that exhibits the violation, which wherever possible covers every case
  in which the property fails rather than one example.
* `seeded/LOG.jsonl` records the wrong programs the theorems were tested against.

## Trusted base

* Lean 4.33.0's kernel; the axioms `propext`, `Classical.choice`, `Quot.sound` at most (no axioms of our own, no
  `sorry`, no `native_decide`, no `bv_decide`). The axioms of each theorem are listed at the end of this file.
* The reading of the Python source: the correspondence model ↔ code is by inspection, function by function.
* Python semantics as encoded in `Verif/Py.lean`.

## What is modelled and what is not

| File | Modelled | Not modelled |
|---|---|---|
| `starks/numbertype.py` | `__pow__`, `powmod`, reflected operators, division of field elements, `memoize` (with its key), `typecheck` on ints and the classes over one prime and one modulus or over two different ones, and on integers and rationals modulo any numbers, ints, byte strings and objects without `int()` (its casts, the exceptions it raises and those it turns into `TypeError`) | the abstract base classes |
| `starks/modp.py` | everything, incl. iteration, bytes and texts | the class names |
| `starks/euclidean.py` | everything | |
| `starks/polynomial.py` | constructor (ints, elements, lists), `strip`, all operators, `divmod`, evaluation, `__repr__`, the bytes constructor and `to_bytes` over Z/p | the bytes constructor over other coefficient rings |
| `starks/finitefield.py` | constructor, all operators, `inverse`, binary helpers, `two_pow`, `LT`, `Regular_Binary_Addition`, `__repr__`, the bytes constructor, `to_bytes` | `__hash__` is not defined by the code |
| `starks/poly_utils.py` | everything (`Model/OpCount`: batch inversion, interpolation, with a count of multiplications and inversions; likewise polynomial arithmetic and `fft.py`) | `draw_random_interpolant` beyond its constant answer; `gauss` on nested lists that are too small |
| `starks/reedsolomon.py` | `AffineSpace`, `ReedSolomonCode` | `SmoothMultiplicativeGroup` (empty) |
| `starks/fft.py` | `NonBinaryFFT`, `fft_1d`, `mul_polys`, `Additive_FFT` | the abstract classes `FFT`, `BinaryFFT` |
| `starks/multivariate_polynomial.py` | constructor, operators, evaluation, `degree`, equality, iteration, `len`, indexing (`Model/MvOrder`: with the order of the dictionary), `__repr__`, `size_p`, `StrToMulti`, `CheckforDiv`, `PolytoMulti`, `__truediv__`, `division`, `div_remainder` | sympy itself: an arbitrary function on strings; the class names |
| `starks/merkle_tree.py` | everything, indices also as arbitrary ints | `evaluate_polynomials` (uses undefined names) |
| `starks/compression.py` | everything | |
| `starks/utils.py` | everything but | `plus_one` |
| `starks/air.py` | everything | `extension_factor` (stored only), printing |
| `starks/apr.py` | everything for extension fields | `m = 1` fields (no `base_field`: the constructor raises); rates are exact quotients in the model; `C92_floats_partial` and `C92_underflow_refuted` speak about the doubles they round to |
| `starks/ali.py` | everything | `APIVerifier` (empty) |
| `starks/fri.py` | `AffineSubspaceFRI` and helpers; `SmoothSubgroupFRI`, which is commented out, as if it were not | the float computation of the number of rounds (a double within 1/4 of the real number in C95_size_refuted, otherwise arbitrary); `str` of floats and addresses of objects (arbitrary); `verify_proximity_proof` (`NotImplementedError`) |
| `starks/stark.py` | everything below the import of the missing `fri.FRI` class | the two calls to `FRI`: arbitrary functions, or those of `SmoothSubgroupFRI` in C74_smooth and C75_smooth_refuted |
| `starks/rationals_modp.py` | everything | the class names |
| `starks/floatingpoint.py` | everything | |
| `misc/zero_knowledge.py`, `misc/primality.py`, `misc/blum_blum_shub.py`, `misc/commitment.py`, `misc/zkp_3_coloring.py` | everything with random draws as parameters, unbounded loops with fuel | |
| `misc/blockchain.py` | everything, at the grain of calls and at that of single accesses to shared objects | SHA-256, HTTP: arbitrary functions and answers (`Model/BlockchainJson`: arbitrary JSON values as blocks and answers; `Model/ChainHash`: `json.dumps`, `hexdigest` and the string of `valid_proof`, without lone surrogates, the texts of floats being open) |
| `misc/run_blockchain.py` | all handlers, with arbitrary JSON request bodies and several nodes | Flask, JSON formatting, texts with lone surrogates; the file misses imports and does not run as it stands |
| `starks/test/Logistic_Regression.py` | everything up to the first `FloatingPoint` (it always raises before it) | `float(line)` and `struct.pack`: a number is given as sign and bit pattern |
| `starks/test` (rest), `tutorials` | the assertions of the tests and the examples of the notebooks are evaluated on the model (`Verif/Conformance`) | test code and notebooks |


## Plan and result per property

For each property: what is modelled, how it is proved, the theorems, the status. A theorem that ends in `_partial` proves part of the property and says in its comment what is missing; one that ends in `_refuted` shows where the code violates it. Full statements are in `properties.jsonl`.

### C01 Z/p arithmetic is integer arithmetic mod p — proved

* Model: `Modp`: every operator of an `IntegersModP(p)` instance on its raw int; `Zp p` = ints in `[0,p)`.
* Proof: each raw function is shown to compute the canonical representative; `Zp p` gets a Mathlib `Field` instance whose operations are definitionally the code's, with a ring isomorphism to `ZMod p`.
* Theorems: `C01_modp_arithmetic`, `C01_modp_field`.

### C02 Z/p inversion and division — proved

* Model: `Modp.inverse`, `truediv` through the modelled extended Euclid.
* Proof: Bezout identity of C04 at `(n, p)`.
* Theorems: `C02_inverse`, `C02_division`.

### C03 Z/p byte encoding round-trips — proved

* Model: `toBytes`, the bytes constructor, `Py.intToBytes`/`intFromBytes`.
* Proof: induction on the byte list; overflow exactly outside the range.
* Theorems: `C03_bytes_roundtrip`, `C03_bytes_constructor`.

### C04 Euclid's algorithm on integers — proved

* Model: `Euclidean.gcd`, `xgcd` generic in `divmod`/`abs`, at `Int`.
* Proof: loop invariant (gcd and Bezout), measure `abs b` for termination.
* Theorems: `C04_gcd_int`, `C04_extended_euclid_int`.

### C05 Euclid's algorithm on polynomials — proved

* Model: the same functions at coefficient lists with the modelled polynomial `divmod`.
* Proof: the same invariant, measure the number of coefficients.
* Theorems: `C05_gcd_poly`, `C05_extended_euclid_poly`.

### C06 Exponentiation — proved

* Model: `Numbertype.powLoop` (square and multiply), generic in the monoid; instances at `Zp`, `Fq`, polynomials, multivariates.
* Proof: loop invariant `R · Q^k = x^n`; negative exponents through inverses.
* Theorems: `C06_pow_extension`, `C06_pow_extension_negative`, `C06_pow_multivariate`, `C06_pow`, `C06_pow_modp`, `C06_pow_poly`, `C06_pow_negative`.

### C07 Modular exponentiation — proved

* Model: `pyPowmod` with the polynomial `mod`.
* Proof: the same invariant modulo the modulus; edge cases listed.
* Theorems: `C07_powmod`, `C07_powmod_edge`.

### C08 Polynomial representation is canonical — proved

* Model: `Polynomial.strip`, `ctor` and all operators on coefficient lists.
* Proof: every result has no trailing zero; degree, length, leading coefficient and equality read off Mathlib's polynomial.
* Theorems: `C08_results_canonical`, `C08_canonical_queries`.

### C09 Polynomial ring operations — proved

* Model: all ring operators on coefficient lists.
* Proof: refinement: `toPoly` is a ring isomorphism from canonical lists to `R[X]`.
* Theorems: `C09_ring_operations`, `C09_ring_isomorphism`.

### C10 Polynomial division with remainder — proved

* Model: `divmodLoop` (long division).
* Proof: loop invariant `f = q·g + r` and degree descent; uniqueness from Mathlib.
* Theorems: `C10_divmod`, `C10_divmod_zero`.

### C11 Polynomial evaluation — partial

* Model: `call` (power accumulation loop), also on polynomial arguments.
* Proof: loop invariant on the accumulated power.
* Theorems: `C11_call_is_evaluation`, `C11_call_homomorphism`, `C11_call_composition_partial`, `C11_extension_composition_refuted`.
* Result: Evaluation at elements and the homomorphism property are proved; composition is proved over Z/p and the rationals, and raises TypeError over the extension fields (C11_extension_composition_refuted).

### C12 F_{p^m} is a field — proved

* Model: `FiniteField` operators on the carried polynomial.
* Proof: isomorphism with `AdjoinRoot f`; irreducibility gives the field.
* Theorems: `C12_extension_field`, `C12_construction`.

### C13 F_{p^m} inversion — proved

* Model: `fqInverse` through polynomial extended Euclid.
* Proof: Bezout identity of C05.
* Theorems: `C13_inverse`.

### C14 Irreducibility test is exact — proved

* Model: `isIrreducible`'s loop over `x^(p^i) - x` gcds, with `powmod`.
* Proof: distinct-degree criterion: an irreducible factor of degree `i` divides `x^(p^i) - x`.
* Theorems: `C14_is_irreducible`, `C14_constants`.

### C15 Primitivity test is exact — proved

* Model: `isPrimitive`'s loop over the factors of `p^m - 1`; sympy's `factorint` assumed to list the prime factors.
* Proof: order of the root in the multiplicative group; exact for every monic irreducible polynomial.
* Theorems: `C15_is_primitive`, `C15_is_primitive_x`.

### C16 Random generation only returns what it promises — partial

* Model: the search loops over an arbitrary stream of draws.
* Proof: induction over the stream; returning for fair streams; the missing irreducibility check in the primitive search is refuted.
* Theorems: `C16_generate_irreducible`, `C16_is_monic`, `C16_generate_irreducible_returns`, `C16_generate_primitive_partial`, `C16_generate_primitive_refuted`.
* Result: Proved for degrees above 1; for degree 1 the polynomial x is returned, whose class has order 0.

### C17 Memoised type constructors are transparent — partial

* Model: `memoize` with its dictionary and key, as a state machine.
* Proof: induction over call histories; the key drops keyword values.
* Theorems: `C17_memoize_positional_partial`, `C17_kwargs_collide`, `C17_kwargs_refuted`.
* Result: Holds for every history of positional calls; keyword values are not part of the cache key, so the full statement is false (C17_kwargs_refuted, C17_kwargs_collide).

### C18 Batch inversion — partial

* Model: `multiInv` with its forward and backward loops and the truthiness of elements.
* Proof: loop invariants on prefix products; zeros raise.
* Theorems: `C18_multi_inv_partial`, `C18_multi_inv_single_inversion`, `C18_multi_inv_zero_refuted`, `C18_multi_inv_falsy_zero`.
* Result: Non-zero entries are inverted whatever zeros appear elsewhere; at zero positions the code returns 1 instead of 0 (C18_multi_inv_zero_refuted).

### C19 Polynomial from roots — proved

* Model: `zpoly`'s in-place loops.
* Proof: induction over the roots.
* Theorems: `C19_zpoly`.

### C20 Lagrange interpolation — proved

* Model: `lagrangeInterp` (numerators by division of the master polynomial).
* Proof: Lagrange uniqueness; repeated points and length mismatches give exceptions, characterised exactly.
* Theorems: `C20_lagrange_interp`, `C20_lagrange_interp_lengths`.

### C21 Specialised interpolation agrees with the general one — proved

* Model: `lagrangeInterp4`, `lagrangeInterp2`, `multiInterp4` with the shared inversions.
* Proof: agreement with C20 by uniqueness.
* Theorems: `C21_lagrange_interp_4`, `C21_lagrange_interp_2`, `C21_multi_interp_4`.

### C22 Affine space enumeration — proved

* Model: `AffineSpace.__iter__` (cartesian product of field iterators) and `__len__`.
* Proof: the list is the coset of the span, each element once iff the basis is independent; `len` overflow included.
* Theorems: `C22_affine_space`, `C22_affine_space_len`.

### C23 Affine vanishing polynomial — partial

* Model: `construct_affine_vanishing_polynomial`, scalars in Z/p, elements in any vector space, cast into any field.
* Proof: product over the enumerated elements; roots are exactly the casts of the elements.
* Theorems: `C23_affine_vanishing_partial`, `C23_affine_vanishing_in_extension`, `C23_affine_vanishing_extension_refuted`.
* Result: Proved for scalars in Z/p, elements of any vector space and a cast into any field (so for the library's own uses, C23_affine_vanishing_in_extension). With scalars in an extension field the code raises AttributeError (C23_affine_vanishing_extension_refuted).

### C24 FFT evaluates — proved

* Model: `fft1d`, `_fft`, `_simple_ft`, the roots of unity loop.
* Proof: strong induction on the halving, with an invariant for strided sublists.
* Theorems: `C24_fft`, `C24_other_sizes`, `C24_large_degree`.

### C25 Inverse FFT inverts — proved

* Model: `inv_fft`.
* Proof: orthogonality of powers of a primitive root.
* Theorems: `C25_inverse_fft`.

### C26 FFT polynomial multiplication — partial

* Model: `mul_polys` (two FFTs, pointwise product, inverse).
* Proof: C24, C25 and reduction modulo `x^n - 1`.
* Theorems: `C26_mul_polys_partial`, `C26_mul_polys_actual`, `C26_mul_polys_refuted`.
* Result: False: the 1/n of the inverse transform is missing, so the result is n times the product (C26_mul_polys_refuted), taken modulo X^n - 1 if it does not fit the domain (C26_mul_polys_actual). The claim holds where n = 1 in the field.

### C27 Power cycle — proved

* Model: `get_power_cycle`'s loop.
* Proof: induction; terminates exactly for elements of finite order, which is every non-zero element of a finite field.
* Theorems: `C27_power_cycle`, `C27_power_cycle_modp`.

### C28 Merkle index permutation — proved

* Model: `permute4`, `get_index_in_permuted`.
* Proof: index arithmetic on four interleaved quarters.
* Theorems: `C28_permute4`.

### C29 Merkle tree structure — proved

* Model: `merkelize` filling the array from the back.
* Proof: loop invariant: node `i` is the hash of its children.
* Theorems: `C29_merkelize_structure`, `C29_leaf_encoding`.

### C30 Merkle completeness — proved

* Model: `mk_branch`, `verify_branch`.
* Proof: induction along the path.
* Theorems: `C30_merkle_completeness`, `C30_small_trees_raise`.

### C31 Merkle binding — partial

* Model: `verify_branch` on adversarial branches.
* Proof: two accepted branches for different leaves give an explicit collision of the hash; lengths matter, hence the refuted part.
* Theorems: `C31_merkle_binding_partial`, `C31_opening_is_item_partial`, `C31_merkle_binding_refuted`.
* Result: Proved for openings of equal length; false in general because the lengths of leaves are not checked.

### C32 Leaf packing round-trips — proved

* Model: `merkelize_polynomial_evaluations`, `unpack_merkle_leaf`.
* Proof: chunking of fixed-width encodings.
* Theorems: `C32_unpack`, `C32_pack_open_unpack`.

### C33 FRI proof compression round-trips — proved

* Model: `compress_fri`, `decompress_fri` with the shared dictionary.
* Proof: printer/parser simulation by induction over the proof tree, the dictionary as invariant.
* Theorems: `C33_compress_fri_iff`, `C33_compress_fri_roundtrip`.

### C34 Branch compression round-trips — proved

* Model: `compress_branches`, `decompress_branches`.
* Proof: as C33.
* Theorems: `C34_compress_branches_iff`, `C34_compress_branches_roundtrip`.

### C35 Compression never silently corrupts — proved

* Model: both pairs on arbitrary input.
* Proof: whatever compression returns decompresses to the input; decompression terminates on every input.
* Theorems: `C35_compress_fri_never_corrupts`, `C35_compress_branches_never_corrupts`, `C35_decompress_terminates`.

### C36 Pseudorandom indices are in range and avoid multiples — proved

* Model: `get_pseudorandom_indices` incl. rejection of multiples.
* Proof: digit arithmetic; the bias statement counts preimages.
* Theorems: `C36_indices`, `C36_indices_exclude`, `C36_indices_unbiased`, `C36_indices_prefix`, `C36_modulus_too_large`, `C36_no_index_left`.

### C37 Power-of-two test — proved

* Model: `is_a_power_of_2`' recursion.
* Proof: strong induction.
* Theorems: `C37_is_a_power_of_2`.

### C38 Pseudorandom coefficients — proved

* Model: `get_pseudorandom_ks`.
* Proof: list induction.
* Theorems: `C38_pseudorandom_ks`.

### C39 Multivariate polynomial ring operations — proved

* Model: the dictionary operators of `multivariates_over`.
* Proof: `toMv` is a ring homomorphism; evaluation is `MvPolynomial.eval`.
* Theorems: `C39_constructors`, `C39_ring_ops`, `C39_evaluation`, `C39_evaluation_hom`.

### C40 Multivariate representation is canonical — proved

* Model: constructor, `remove_zero_coefficients`, sorted keys.
* Proof: well-formedness invariant; injectivity of `toMv`.
* Theorems: `C40_canonical`, `C40_unique_representative`.

### C41 Univariate/multivariate conversions — partial

* Model: `make_multivar`, `project_to_univariate`, `generate_Xi_s`.
* Proof: loop invariants; the zero polynomial is the exception.
* Theorems: `C41_generate_Xi_s`, `C41_make_multivar_partial`, `C41_make_multivar_refuted`, `C41_project_to_univariate_partial`, `C41_project_to_univariate_refuted`.
* Result: Proved for all non-zero polynomials; for the zero polynomial make_multivar and project_to_univariate return the int 0, which cannot be evaluated.

### C42 Multivariate Dirac delta — proved

* Model: `construct_multivariate_dirac_delta`.
* Proof: induction over the variables, Lagrange basis polynomials.
* Theorems: `C42_dirac_delta`, `C42_other_lengths`.

### C43 Functions compile to polynomials — partial

* Model: `construct_multivariate_coefficients` as written.
* Proof: exact description of what is computed, then the one-variable case and refutations.
* Theorems: `C43_actual`, `C43_functions_to_polynomials_partial`, `C43_two_variables_refuted`, `C43_two_variables_wrong_value_refuted`, `C43_extension_refuted`.
* Result: Proved for one variable over Z/p. C43_actual says what is computed in general; the property is false for two or more variables and for extension fields.

### C44 AIR trace is an execution — proved

* Model: `get_computational_trace`.
* Proof: induction on steps; exact condition for returning.
* Theorems: `C44_trace`, `C44_total`.

### C45 AIR constraints characterise valid transitions — proved

* Model: `generate_constraint_polynomials`, `generate_monotone_circuit`, `C_degree`, the constructor.
* Proof: evaluation homomorphism (C39).
* Theorems: `C45_constraints`, `C45_circuit`, `C45_air_accepts`, `C45_constructor`.

### C46 AIR witness and boundary — proved

* Model: `generate_witness`, `generate_boundary_constraints`.
* Proof: column extraction.
* Theorems: `C46_witness_boundary`.

### C47 STARK trace polynomials interpolate the witness — proved

* Model: `construct_trace_polynomials` with the inverse FFT.
* Proof: C24/C25.
* Theorems: `C47_trace_polynomials`, `C47_short_columns`, `C47_other_sizes`, `C47_air_steps`.

### C48 STARK remainder check accepts exactly valid traces — partial

* Model: `construct_constraint_polynomials`, `construct_remainder_polynomials`.
* Proof: divisibility by the vanishing polynomial of the trace domain iff every step is valid.
* Theorems: `C48_remainder_partial`, `C48_zero_step_refuted`, `C48_remainder_refuted`, `C48_extension_field_refuted`.
* Result: Proved over Z/p for all witnesses whose column is not constant in the coordinates with a zero step polynomial; with a zero step polynomial and a constant column the prover raises TypeError on every valid trace (C48_zero_step_refuted). Over extension fields the constructions always raise TypeError (C48_extension_field_refuted).

### C49 STARK boundary polynomials — partial

* Model: `construct_boundary_polynomials`.
* Proof: interpolation through the two boundary points and divisibility.
* Theorems: `C49_boundary_partial`, `C49_boundary_refuted`.
* Result: Proved when the outputs are not zero; if an output is zero the prover raises IndexError (C49_boundary_refuted).

### C50 STARK spot checks: completeness — partial

* Model: `compute_merkle_spot_checks`, `verify_proof_at_position`.
* Proof: polynomial identities evaluated at the queried points.
* Theorems: `C50_degree_refuted`, `C50_spot_checks_partial`.
* Result: Proved for widths below 10, non-zero outputs and step polynomials of degree at most extension_factor+1 (C49 and C52 say what happens for the first two). Nothing checks the degree; C50_degree_refuted is a valid execution of too high a degree whose honest proof fails at every sampled position.

### C51 STARK spot checks: what acceptance means — proved

* Model: `verify_proof_at_position` on arbitrary leaves.
* Proof: inversion of the check: acceptance iff three explicit equations.
* Theorems: `C51_what_acceptance_means`, `C51_all_positions`.

### C52 STARK random linear combination — partial

* Model: `compute_pseudorandom_linear_combination`.
* Proof: linearity; exact width bound.
* Theorems: `C52_combination_partial`, `C52_combination_refuted`, `C52_extension_field_refuted`.
* Result: Proved over Z/p for widths 1 to 9; from 10 coordinates on the code raises TypeError (C52_combination_refuted). Over extension fields it raises TypeError (C52_extension_field_refuted).

### C53 Rationals mod p represent Z/p — partial

* Model: `RationalsModP` on its two ints.
* Proof: quotient of pairs; homomorphism to Z/p.
* Theorems: `C53_constructor`, `C53_operations`, `C53_division`, `C53_equality`, `C53_inequality_refuted`, `C53_onto`, `C53_zero_denominator`, `C53_bytes_roundtrip`.
* Result: Everything holds except `!=`, which always raises NameError (C53_inequality_refuted).

### C54 Binary comparison — proved

* Model: `LT` on bit lists.
* Proof: induction over the bits, numeric value.
* Theorems: `C54_LT`.

### C55 Binary addition — proved

* Model: `add_binary_nums`, `Regular_Binary_Addition`.
* Proof: carry invariant.
* Theorems: `C55_add_binary_nums`, `C55_regular_binary_addition`.

### C56 Powers of two in the field — partial

* Model: `two_pow`' loop.
* Proof: exact value, then where it equals the power of two.
* Theorems: `C56_two_pow_partial`, `C56_two_pow_actual`, `C56_two_pow_refuted`.
* Result: Proved where it holds; C56_two_pow_actual says what the code computes and C56_two_pow_refuted where it is wrong.

### C57 Floating-point algebra — partial

* Model: all operators of `FloatingPoint`.
* Proof: case analysis on the code's branches; counterexamples with literals.
* Theorems: `C57_equality_partial`, `C57_equality_refuted`, `C57_zero`, `C57_division_by_zero`, `C57_subtraction_refuted`, `C57_subtraction_partial`, `C57_mul_comm_partial`, `C57_mul_comm_refuted`.
* Result: Equality, subtraction and commutativity hold under the stated conditions and are false otherwise (the _refuted theorems give the witnesses).

### C58 Additive FFT — partial

* Model: `Additive_FFT` incl. Taylor expansion.
* Proof: the base case and a family where it is right; counterexamples otherwise.
* Theorems: `C58_adfft_m1`, `C58_adfft_partial`, `C58_adfft_m1_refuted`, `C58_adfft_refuted`, `C58_adfft_m2_actual`, `C58_adfft_m2_zero_refuted`, `C58_adfft_inverse_ignores_values`, `C58_adfft_inverse_actual`, `C58_adfft_inverse_m1_refuted`, `C58_adfft_inverse_refuted`.
* Result: The additive FFT is wrong; the theorems say where it is right, what it computes instead and give counterexamples.

### C59 Isomorphism protocol completeness — partial

* Model: the isomorphism protocol as a function of the random choices.
* Proof: composition of permutations, exact conditions on vertex counts and edge order.
* Theorems: `C59_exact_partial`, `C59_zero_vertex_refuted`, `C59_completeness_partial`, `C59_completeness_spanning`, `C59_isolated_refuted`, `C59_edge_order_refuted`.
* Result: Proved when the largest vertex number of the two graphs is the same (always so when every vertex has an edge, C59_completeness_spanning) and the edges are listed in the same order; false otherwise (C59_isolated_refuted, C59_edge_order_refuted, C59_zero_vertex_refuted). C59_exact_partial gives the exact outcome of a run for every list used as isomorphism.

### C60 Isomorphism protocol soundness — partial

* Model: the verifier on arbitrary answers.
* Proof: forgery construction; soundness for injective answers.
* Theorems: `C60_challenges`, `C60_soundness_refuted`, `C60_forgery_refuted`, `C60_soundness_partial`.
* Result: False: injectivity of the answer is not checked, so any two graphs with as many edges are accepted (C60_forgery_refuted). Proved for injective answers.

### C61 Isomorphism protocol simulator — partial

* Model: `simulate_protocol`.
* Proof: exact acceptance condition.
* Theorems: `C61_simulator_partial`, `C61_simulator_refuted`.
* Result: False: the simulator returns the permutation instead of its inverse. C61_simulator_partial says exactly which transcripts are accepted.

### C62 Bit and integer commitments open correctly — proved

* Model: bit and integer commitments.
* Proof: bit-string round trip.
* Theorems: `C62_bit`, `C62_int`, `C62_out_of_range`.

### C63 Commitment binding — partial

* Model: the verifiers on arbitrary openings.
* Proof: square roots of residues; injective one-way functions.
* Theorems: `C63_binding_refuted`, `C63_binding_injective_partial`, `C63_binding_residue_partial`, `C63_int_binding_partial`, `C63_int_truncation_refuted`.
* Result: False for every modulus (C63_binding_refuted). Proved for injective one-way functions and for openings that are reduced quadratic residues. For integers it also fails with an injective one-way function because an opening may have fewer secrets than there are commitments (C63_int_truncation_refuted); openings of equal length agree (C63_int_binding_partial).

### C64 3-coloring protocol — proved

* Model: `ZK3ColProver`, `ZK3ColVerifier`, `run_protocol`.
* Proof: case analysis on the chosen edge.
* Theorems: `C64_outcome`, `C64_completeness`, `C64_improper_rejected`.

### C65 Primality test never rejects a prime — proved

* Model: `decompose`, `isWitness`, `probablyPrime`.
* Proof: Fermat and square roots of 1 in a field.
* Theorems: `C65_prime_accepted`, `C65_rejects_composite`, `C65_decompose`, `C65_factor_exposes`.

### C66 Blockchain validity invariant — partial

* Model: the `Blockchain` state machine.
* Proof: invariant over histories of requests.
* Theorems: `C66_valid`, `C66_valid_chain`, `C66_indices_partial`, `C66_indices_refuted`, `C66_mine`.
* Result: Validity and proof of work hold for every history. Indices count up as long as the chains peers answer do; an adopted chain is not checked for that (C66_indices_refuted).

### C67 Blockchain transactions are conserved — proved

* Model: as C66.
* Proof: counting invariant over histories.
* Theorems: `C67_conserved`, `C67_resolve_loses`.

### C68 Consensus never shortens the chain — partial

* Model: `resolve_conflicts` on arbitrary peer answers.
* Proof: loop invariant over the peers.
* Theorems: `C68_longest_partial`, `C68_adopted`, `C68_length_refuted`, `C68_empty_refuted`, `C68_unreachable_refuted`.
* Result: Proved when peers state the true lengths of their chains. The claimed length is trusted, so the chain can be replaced by a shorter one; one bad or unreachable peer makes the call raise (the _refuted theorems).

### C69 Concurrent mining keeps the chain valid — partial

* Model: small-step semantics of concurrent requests.
* Proof: invariant over all schedules; a two-thread counterexample.
* Theorems: `C69_valid_refuted`, `C69_tree_partial`, `C69_exclusive_partial`.
* Result: False (C69_valid_refuted). For every schedule the chain is a tree of valid links; it is valid when no two /mine requests overlap.

### C70 MiMC rounds are permutations — proved

* Model: `mimc`.
* Proof: cubing is a permutation when 3 does not divide p-1; inverse rounds.
* Theorems: `C70_mimc`, `C70_mimc_rounds_permute`.

### C71 Integer coefficients are reduced into the ring — partial

* Model: the polynomial constructor on ints.
* Proof: casting into the ring; which ints become 0 only after the cast.
* Theorems: `C71_int_coefficients_refuted`, `C71_int_coefficients_partial`, `C71_equality`, `C71_transitivity_refuted`.
* Result: False for int coefficients that are non-zero multiples of the characteristic; proved for all others. C71_equality says when two dictionaries with int coefficients compare equal; this is not transitive (C71_transitivity_refuted).

### C72 Proof size accounting — proved

* Model: `bin_length`.
* Proof: length of the concatenated encodings.
* Theorems: `C72_bin_length`.

### C73 STARK parameters — partial

* Model: `STARK.__init__`.
* Proof: orders of powers of 7.
* Theorems: `C73_default_modulus`, `C73_parameters_partial`, `C73_modp`, `C73_parameters_refuted`.
* Result: Proved when 7^((p-1)/precision) has order precision; otherwise IndexError. C73_parameters_refuted: nothing checks that precision divides p-1.

### C74 STARK completeness — partial

* Model: `mk_proof`, `verify_proof` together, FRI abstract.
* Proof: C30, C32, C50 composed.
* Theorems: `C74_smooth`, `C74_degree_refuted`, `C74_completeness_partial`, `C74_completeness_refuted`.
* Result: Proved under the hypotheses of C50 for at most 80 spot checks; for more the verifier raises IndexError (C74_completeness_refuted), and for step polynomials of higher degree honest proofs can be refused (C74_degree_refuted). C74_smooth is the statement with SmoothSubgroupFRI as the proximity test, end to end.

### C75 STARK soundness — partial

* Model: `verify_proof` on adversarial proofs.
* Proof: explicit forgery for every claim.
* Theorems: `C75_smooth_refuted`, `C75_forgery`, `C75_soundness_refuted`.
* Result: False: the verifier does not link the combination to the other commitments, so every claim has an accepted proof (C75_forgery, C75_soundness_refuted, and C75_smooth_refuted with SmoothSubgroupFRI as the proximity test). C76 is the part of the argument that holds.

### C76 STARK spot checks: algebraic soundness — proved

* Model: the algebraic content of the spot checks.
* Proof: degree counting: a false claim satisfies the equations at few points.
* Theorems: `C76_algebraic_soundness`.

### C77 Floating-point exponentiation — proved

* Model: `FloatingPoint.__pow__`.
* Proof: loop invariant.
* Theorems: `C77_exponentiation`.

### C78 Floating-point sums and products agree with fixed-point values — partial

* Model: `Float_to_Fix`, `__add__`, `__mul__`.
* Proof: branch analysis; counterexamples.
* Theorems: `C78_add_comm`, `C78_add_fixed_partial`, `C78_add_fixed_refuted`, `C78_mul_fixed_partial`, `C78_mul_fixed_refuted`.
* Result: Addition commutes for all floats. The fixed-point value of a sum or product is the sum or product only under the stated conditions; refuted in general.

### C79 Convincing the verifier beyond doubt — proved

* Model: `convince_beyond_doubt`.
* Proof: least `k` with `2^-k ≤` tolerance, with underflow to 0 after 1074 halvings.
* Theorems: `C79_outcome`, `C79_rounds`, `C79_negative_tolerance`, `C79_all_accepted`.

### C80 Primality test error bound — proved

* Model: `probablyPrime` over all vectors of draws.
* Proof: for each composite at most a quarter of the bases are non-witnesses (Rabin and Monier: they lie in a subgroup of index at least 4; 9 has none), then a product count.
* Theorems: `C80_error_probability`.

### C81 Blum-Blum-Shub is a permutation of the quadratic residues — proved

* Model: `blum_blum_shub`, `good_prime`, `parity`.
* Proof: Mathlib's quadratic residues.
* Theorems: `C81_permutation`, `C81_good_prime`, `C81_parity`.

### C82 3-coloring protocol soundness — partial

* Model: the verifier on adversarial openings.
* Proof: forgery; colouring extracted from consistent openings.
* Theorems: `C82_soundness_refuted`, `C82_bbs_forgery_refuted`, `C82_soundness_partial`.
* Result: False for every loop-free graph (C82_soundness_refuted) and, through the commitments, for every graph (C82_bbs_forgery_refuted). The partial theorem gives a 4-colouring under the stated conditions.

### C83 Announced block index — partial

* Model: histories with `new_transaction` answers.
* Proof: invariant linking announced index and chain length.
* Theorems: `C83_index_partial`, `C83_index_refuted`.
* Result: Proved for histories without resolve_conflicts; false with it (C83_index_refuted).

### C84 Concurrent requests conserve transactions — partial

* Model: two grains of concurrency.
* Proof: counting invariant over schedules; counterexample schedule.
* Theorems: `C84_conserved_partial`, `C84_serial_partial`, `C84_conserved_refuted`.
* Result: Proved for every interleaving of atomic new_transaction/new_block calls, and at the grain of single accesses for requests one after the other; false for interrupted new_block calls (C84_conserved_refuted).

### C85 Blocks are immutable — partial

* Model: as C84, block lists on a heap.
* Proof: frame invariant over schedules; counterexample schedule.
* Theorems: `C85_immutable_partial`, `C85_immutable_concurrent_partial`, `C85_immutable_refuted`.
* Result: Proved for every history and for every interleaving of atomic calls; false at the grain of single accesses (C85_immutable_refuted).

### C86 The default modulus — proved

* Model: the literal modulus.
* Proof: Lucas certificate checked by the kernel; orders of powers of 7.
* Theorems: `C86_mimc_modulus`, `C86_modulus`, `C86_root`, `C86_computation`.

### C87 Gaussian elimination solves linear systems — partial

* Model: `gauss` with in-place updates and pivot search.
* Proof: elimination preserves the solution set; invariant on the triangular part, arbitrary pivot comparisons.
* Theorems: `C87_gauss_partial`, `C87_gauss_refuted`, `C87_gauss_elements_refuted`.
* Result: Proved for constant entries over every field (size unbounded, whatever the pivot order). False for entries of positive degree, where / drops remainders (C87_gauss_refuted), and for field elements (AttributeError).

### C88 Moore-matrix vanishing polynomial — partial

* Model: `construct_affine_vanishing_polynomial_Moore`.
* Proof: length of the result.
* Theorems: `C88_moore_refuted`, `C88_moore_elements_refuted`, `C88_check_refuted`.
* Result: False whenever the function returns (C88_moore_refuted, C88_moore_elements_refuted): the result has at most d coefficients. For two constants the assertion fails although the kernel is right, because it is checked against the matrix changed by the elimination (C88_check_refuted).

### C89 APR constructor — proved

* Model: `APR.__init__` with all it calls.
* Proof: inversion of the constructor; sizes.
* Theorems: `C89_constructor`.

### C90 APR boundary polynomials — partial

* Model: `construct_Z_boundaries`, `construct_Eps_boundaries`.
* Proof: products over constraints, interpolation.
* Theorems: `C90_boundary_partial`, `C90_boundary_refuted`.
* Result: False for every AIR with two registers or more (C90_boundary_refuted): the register of a constraint is ignored. Proved when all constraints concern one register.

### C91 APR witness encodes the trace — partial

* Model: `generate_witness`, `draw_random_interpolant` (constant 0).
* Proof: division by the vanishing polynomial.
* Theorems: `C91_witness_partial`, `C91_witness_refuted`.
* Result: False for every AIR with two registers or more and a non-zero input (C91_witness_refuted). With one register: exactly when the trace is constant.

### C92 APR evaluation spaces and rates — partial

* Model: `construct_L`, `construct_L_cmp`, the rates as exact quotients.
* Proof: C22 sizes; inequalities.
* Theorems: `C92_rates_partial`, `C92_rates_refuted`, `C92_floats_partial`, `C92_underflow_refuted`.
* Result: Bounds proved for the exact quotients (C92_rates_partial) and for the floats next to them (C92_floats_partial: at most 1/2, positive while q^(26+k) <= 2^1074). Over larger fields every rate underflows to 0.0 (C92_underflow_refuted; with the default k from q = 2^58 on). The rates are not relative to the sizes of L and Lcmp over proper extensions, and L cannot be enumerated (C92_rates_refuted).

### C93 APR neighbours follow the computation — partial

* Model: `construct_neighbors`, `generate_primitive_polynomial`.
* Proof: orders of the generator; evaluation of the neighbour polynomials.
* Theorems: `C93_points_distinct_iff`, `C93_neighbours_partial`, `C93_neighbours_refuted`.
* Result: Distinctness: exact condition (C93_points_distinct_iff). Neighbours: proved in characteristic 2, false in odd characteristic when the degree exceeds the number of registers.

### C94 APR constraint polynomials — partial

* Model: `construct_Phi_polynomials`, `tilde_expansion`.
* Proof: the second quotient `1/Z` is the zero polynomial; concrete expansion.
* Theorems: `C94_constraints_refuted`, `C94_tilde_refuted`, `C94_every_constraint_refuted`, `C94_tilde_partial`, `C94_tilde_general_refuted`, `C94_first_constraint_partial`, `C94_first_constraints_refuted`.
* Result: False: every second constraint is the zero polynomial (C94_constraints_refuted); with sympy dividing polynomials without a common variable to 0, so is every first one, on every APR object (C94_every_constraint_refuted). The tilde expansion is characterised exactly (C94_tilde_partial) and is never the required one (C94_tilde_general_refuted).

### C95 FRI commitment phase — partial

* Model: `AffineSubspaceFRI.commit`.
* Proof: interpolation uniqueness on the last space; exceptions otherwise.
* Theorems: `C95_commit_partial`, `C95_commit_refuted`, `C95_errors_refuted`, `C95_size_refuted`.
* Result: Proved for an int rate and one round. False for every rate below 1 and from two rounds on (C95_commit_refuted). C95_size_refuted: two rounds or more as soon as |S|*rate is at least 32, with the double off by at most 1/4 from log2(|S|*rate)/2.

### C96 FRI completeness — partial

* Model: `commit` and `query` together.
* Proof: exact verdict of the one-round test.
* Theorems: `C96_rounds_refuted`, `C96_completeness_partial`, `C96_no_round_refuted`, `C96_completeness_refuted`.
* Result: Proved with one round and an int rate for small polynomials that are not 0 at the challenge, when the draws select an element; false in all other cases.

### C97 FRI soundness — partial

* Model: `query` on adversarial proofs.
* Proof: the last polynomial vanishes at all queried points, so the proof is irrelevant.
* Theorems: `C97_soundness_refuted`, `C97_verdict_refuted`, `C97_no_round_refuted`.
* Result: False: the coefficients in the proof are ignored (C97_soundness_refuted), and with no round everything is accepted.

### C98 FRI challenges — partial

* Model: `HextoBin`, `select_random`, digest arbitrary.
* Proof: digit induction; value at the generator.
* Theorems: `C98_hex_to_bin`, `C98_select_random_partial`, `C98_select_random_refuted`.
* Result: Digits proved; select_random proved for extension fields, raises TypeError for prime fields.

### C99 FRI subspace selection — partial

* Model: `select_subspace`.
* Proof: C22 on the truncated basis.
* Theorems: `C99_subspace_partial`, `C99_subspace_refuted`.
* Result: Proved for shifts in the span of the basis; false for every other shift (C99_subspace_refuted), which is dropped.

### C100 FRI folding map — proved

* Model: `eval_on_subspace` with `construct_affine_vanishing_polynomial`.
* Proof: translation invariance of the vanishing polynomial of a subspace.
* Theorems: `C100_folding`.

### C101 ALI proof generation — partial

* Model: `ALIProver` incl. the missing attribute.
* Proof: evaluation of the method on every object.
* Theorems: `C101_proof_refuted`, `C101_code_partial`.
* Result: False for every APR: AttributeError (C101_proof_refuted). The code the constructor sets up has the stated space and rate (C101_code_partial).

### C102 ALI random constraint — partial

* Model: `generate_random_constraint` with the free name `r` as an optional global.
* Proof: loop invariant; NameError in the module as it stands.
* Theorems: `C102_constraint_refuted`, `C102_constraint_partial`, `C102_every_apr_refuted`.
* Result: False for every APR (C102_constraint_refuted): the loop reads an undefined name. If a process defines that name, the sum is right (C102_constraint_partial).

### C103 Mixed-type operators — partial

* Model: values tagged with their class; `typecheck` with the constructors as casts, reflected operators, `__sub__` as `+ (-other)`, `==`.
* Proof: case analysis over pairs of classes; each cast is a ring homomorphism; induction over expressions.
* Theorems: `C103_operators_partial`, `C103_expressions_partial`, `C103_equality_partial`, `C103_right_operand_partial`, `C103_extension_polynomials_refuted`, `C103_prime_field_elements_refuted`, `C103_left_operand_refuted`.
* Result: Proved for the classes that mix (Tower in Spec/Typecheck) and for a polynomial over F_{p^m} with a polynomial over Z/p on its right; false (TypeError) for polynomials over F_{p^m} with elements of F_{p^m} or Z/p, and for a polynomial over Z/p with one over F_{p^m} on its right.

### C104 Evaluating a polynomial at values of other classes — partial

* Model: `__call__` run on tagged values.
* Proof: loop invariant in the ring of the larger class, for any denotation that follows the operators.
* Theorems: `C104_over_prime_field_partial`, `C104_over_extension_field_partial`, `C104_composition_refuted`.
* Result: Proved for all pairs that mix; composition of polynomials over F_{p^m} raises TypeError (C104_composition_refuted).

### C105 Evaluating a multivariate polynomial at values of mixed classes — partial

* Model: multivariate `__call__` run on tagged values.
* Proof: the same, over variables and monomials.
* Theorems: `C105_over_prime_field_partial`, `C105_over_extension_field_partial`, `C105_polynomial_arguments_refuted`, `C105_arity`.
* Result: Proved for all lists of values that mix; polynomials over F_{p^m} as arguments raise TypeError (C105_polynomial_arguments_refuted).

### C106 Mixed-type division — partial

* Model: `__truediv__`, `__rtruediv__` and `inverse` on tagged values.
* Proof: case analysis, with C02, C10 and C12.
* Theorems: `C106_field_division_partial`, `C106_polynomial_division_partial`, `C106_zero_divisor`, `C106_division_by_int_refuted`, `C106_extension_polynomials_refuted`.
* Result: Proved for divisors that are field elements and for polynomials over Z/p; a field element divided by an int raises AttributeError, a polynomial over F_{p^m} divided by an element TypeError. Division by a zero of either field or polynomial class never returns (C106_zero_divisor). Division of multivariate polynomials is C108.

### C107 Reading polynomials from sympy's text — partial

* Model: `StrToMulti` on lists of characters; a specification of the text sympy prints (Spec/MvString).
* Proof: each loop follows the shape of the text: digits, factors, terms; exact case analysis; fuel argument for termination.
* Theorems: `C107_own_text_refuted`, `C107_index_zero_refuted`, `C107_repeated_refuted`, `C107_reads_partial`, `C107_constants`, `C107_signs_refuted`, `C107_end_refuted`, `C107_leading_minus_refuted`, `C107_two_digit_index_refuted`, `C107_terminates`, `C107_large_index_refuted`.
* Result: Characterised exactly for polynomials in at most nine variables (C107_reads_partial) and proved for constants; false for texts that end in a constant or a power (IndexError), that begin with a minus (ValueError), that contain a minus elsewhere (sign lost), and for every text with a variable number ten or more (C107_large_index_refuted). The library cannot read its own texts except constants (C107_own_text_refuted), and an index 0 is read as the last variable (C107_index_zero_refuted). Of repeated monomials only the last coefficient counts (C107_repeated_refuted, the exact result for any list of terms).

### C108 Dividing multivariate polynomials — partial

* Model: `__repr__`, `size_p`, `__truediv__` with sympy as a function on strings.
* Proof: `size_p` by induction over the printed terms, then C107 and the ring homomorphism from the integers.
* Theorems: `C108_exact_quotient_partial`, `C108_modular_refuted`, `C108_power_refuted`, `C108_remainder`.
* Result: Proved for divisions that come out even over the integers with a quotient that C107 reads; false otherwise: sympy divides over the integers, not modulo p, and the text of its quotient may be misread. Sympy is an arbitrary function on strings with the stated answer.

### C109 Univariate polynomials as multivariate ones — partial

* Model: `__repr__` of polynomials and field elements, `CheckforDiv`, `PolytoMulti`.
* Proof: induction over the printed coefficients: the class names are removed; a letter left in the text makes `int` fail.
* Theorems: `C109_constants_partial`, `C109_refuted`, `C109_constant_receiver_refuted`.
* Result: Proved for zero and for constants from the prime field when the receiver is not constant; every other polynomial over an extension field raises ValueError, and a constant receiver gives a power tuple of the wrong length.

### C110 Composing with multivariate polynomials — proved

* Model: `__call__` of both polynomial classes at multivariate polynomials (as apr.py uses it).
* Proof: loop invariants in Mathlib's `MvPolynomial`; the result is `aeval`.
* Theorems: `C110_call`, `C110_call_multi`, `C110_arguments`.

### C111 Dividing a multivariate polynomial by one in one variable — partial

* Model: `division`, `CheckforDiv`, `__repr__` on strings, sympy as a function on strings.
* Proof: the class names are removed from the printed polynomial term by term; sympy's quotient of polynomials without a common variable is 0.
* Theorems: `C111_refuted`, `C111_example_refuted`.
* Result: False for every dividend and divisor that are not constant (C111_refuted): the texts given to sympy have no common variable, so the quotient is 0. Sympy is an arbitrary function on strings that answers 0 in that case (Spec/MvString.QuotientZero).

### C112 Bytes of polynomials and extension field elements — partial

* Model: the bytes constructors and `to_bytes` of both classes, `merkelize` on such leaves.
* Proof: induction over the 32-byte blocks; the call with two arguments raises before any byte is written.
* Theorems: `C112_read_partial`, `C112_to_bytes_refuted`, `C112_merkle_refuted`, `C112_unreduced_refuted`.
* Result: Reading back is proved for the concatenated 32-byte encodings, which no method of the code writes: to_bytes() of every non-zero polynomial or element raises TypeError and of zero returns None; Fq(bytes) does not reduce; Merkle trees of extension field elements raise TypeError.

### C113 Merkle indices outside the list — partial

* Model: `get_index_in_permuted`, `mk_branch`, `verify_branch` on `Int` with Python's floor division and negative list indices (Model/MerkleInt).
* Proof: the direction bits depend only on the index modulo the number of leaves; the permutation is inverted arithmetically.
* Theorems: `C113_nat_partial`, `C113_verify_refuted`, `C113_open_refuted`, `C113_index_error_partial`.
* Result: False: verify_branch treats every int as an alias of some position (C113_verify_refuted), mk_branch opens other leaves at -1 and at len(L) (C113_open_refuted); where it raises IndexError is characterised exactly.

### C114 The Blum-Blum-Shub modulus — partial

* Model: `find_good_prime`, `make_modulus`, `blum_blum_shub` with the random draws as parameters, fuel for the unbounded loop.
* Proof: the loop returns the first candidate that passes (induction on fuel); explicit draws for the refutations.
* Theorems: `C114_search_partial`, `C114_diverges_refuted`, `C114_tiny_refuted`, `C114_composite_refuted`, `C114_generator_partial`.
* Result: False for fewer than two bits (never ends), and some draws give the modulus 9 or a modulus with composite factors. Proved: what the search returns and that squaring permutes the squares when both values are prime. The error probability of the test is C80.

### C115 Constructing finite fields — partial

* Model: `FiniteField` under `memoize`: Python's binding of arguments, the cache and its keys, any history of calls.
* Proof: an invariant of the cache (each entry is the result of some logged call with the same key) from C17; irreducibility from C14.
* Theorems: `C115_first_partial`, `C115_history_refuted`, `C115_positional_refuted`, `C115_degree_refuted`, `C115_malformed`, `C115_degree_keyword_refuted`.
* Result: False after an earlier call with another modulus for the same p and m (the cache key drops keyword values), for a modulus or degree given the other way, and for moduli of another degree. Proved: the first use after any history.

### C116 Reading the inputs of the logistic regression — partial

* Model: the digit strings with zfill, the digit loops, and the one temporary list as an object in a heap that the output refers to by address; whether `struct` is defined is a parameter
* Proof: position of each binary digit in the padded string, induction over the loops and over the lines of the file
* Theorems: `C116_digits_partial`, `C116_alias_refuted`, `C116_struct_refuted`, `C116_regression_refuted`, `C116_lost_bit_refuted`.
* Result: The file falsifies the property. C116_struct_refuted: struct is not imported, so every file that begins with a number raises NameError. C116_alias_refuted: with the import added the result for n numbers is 4n empty lists, whatever the numbers, because one list object is stored each time and then cleared. C116_regression_refuted: Logistic_Regression raises for every file, with or without the import. C116_digits_partial: what the digit loops read before the list is cleared, exactly, for every pattern below 2^63: bits 0..50 and 52..61. C116_lost_bit_refuted: bit 51 is never read, so 1.0 and 1.5 (and every two patterns that differ in this bit only) give the same digits.

### C117 Operators between different kinds of elements — partial

* Model: `typecheck`'s casts between the two classes, ints, byte strings and other objects, with Python's choice between direct and reflected operators.
* Proof: each cast yields a representative of the operand's residue; then the operations of C01 and C53.
* Theorems: `C117_operators_partial`, `C117_reflected_partial`, `C117_division_partial`, `C117_moduli_refuted`, `C117_rational_operand_refuted`, `C117_bytes_refuted`, `C117_comparison_refuted`, `C117_divisor_refuted`.
* Result: Proved for ints, byte strings and elements with the same modulus, on either side. False: elements of different moduli are combined silently with the left modulus, and == is then not symmetric (C117_moduli_refuted); a rational on the right of an integer modulo p raises, on the left it does not (C117_rational_operand_refuted); byte strings of integers of at least p (C117_bytes_refuted); == raises on other objects (C117_comparison_refuted); division by an int raises AttributeError (C117_divisor_refuted).

### C118 Texts of elements and polynomials — partial

* Model: `__str__`, `__repr__`, `__abs__`, and the constructors on strings.
* Proof: decoding: digits up to the next separator, induction over the terms.
* Theorems: `C118_modp`, `C118_polynomials`, `C118_extension_fields`, `C118_rationals_refuted`, `C118_multivariate_refuted`.
* Result: Proved for integers modulo p, polynomials over Z/p, elements of extension fields and polynomials over them. False for rationals, with equal elements printed differently and texts that cannot be read back (C118_rationals_refuted), and for multivariate polynomials, whose text depends on the order of insertion (C118_multivariate_refuted).

### C119 Euclid's algorithm on field elements — proved

* Model: `divmod` and `abs` of both element classes as instances of the interface `euclidean.py` uses.
* Proof: a simulation: the algorithm on elements runs in step with the algorithm on representatives (C05).
* Theorems: `C119_divmod_modp`, `C119_modp`, `C119_divmod_extension`, `C119_extension`.
* Result: For any representatives, including zero and, for divmod, any nonzero divisor.

### C120 FRI challenges agree — partial

* Model: the two texts that are hashed, with `str` of floats and the addresses of objects as parameters.
* Proof: the texts differ in a character, or in a hexadecimal numeral; digests 0 and 1 give different challenges.
* Theorems: `C120_agreement_refuted`, `C120_address_refuted`, `C120_commit_partial`.
* Result: False: commit hashes the text of one float and query a text with the addresses of two objects, so the two texts always differ (C120_agreement_refuted), and the texts of two runs of query differ unless the objects have the same addresses (C120_address_refuted). Proved: the challenge of commit depends on that float only.

### C121 Operands that belong to different fields — partial

* Model: the casts and operators of C103 with the two operands over different primes, moduli and numbers of variables.
* Proof: case analysis over the pairs of classes; the refutations by the coefficient p, which is 0 modulo p but not modulo q, and by -1, whose representative is q - 1.
* Theorems: `C121_rejected_partial`, `C121_polynomials_refuted`, `C121_elements_refuted`.
* Result: Proved for all non-zero values except two pairs of classes. False: a polynomial over Z/q on the right of one over Z/p has its representatives read modulo p, so that == is not symmetric and a - b is not even consistent with + and == (C121_polynomials_refuted); likewise with an element of an extension field of characteristic p, in both orders (C121_elements_refuted). Integers modulo different numbers are in C117. Zero polynomials are cast to zero.

### C122 Successive FRI queries — partial

* Model: `Model/FriQueries`: the list after `query`, and the answers to a sequence of calls sharing it.
* Proof: Induction over the sequence: after the first call positions 0 and 1 of the list are fixed, and with one round `query` reads no others.
* Theorems: `C122_list_refuted`, `C122_stale_refuted`, `C122_answers_partial`.
* Result: Each call appends a function to the list (C122_list_refuted), and later calls check the first proof instead of theirs (C122_stale_refuted). With one round over an independent basis this does not change the answers (C122_answers_partial).

### C123 Transcripts of the isomorphism protocol — partial

* Model: `messages_from_protocol` and `simulate_protocol` as functions of the permutation drawn and the challenge.
* Proof: Composition with the isomorphism is a bijection between the permutations giving a graph in the one and in the other; counted with `Set.ncard`.
* Theorems: `C123_transcript_accepted`, `C123_sent_graph_partial`, `C123_distribution_refuted`.
* Result: Honest transcripts are accepted (C123_transcript_accepted) and the graph sent has the same distribution in both (C123_sent_graph_partial, counted for each challenge and graph). The witnesses do not: the simulator returns the permutation where the protocol returns its inverse (C123_distribution_refuted).

### C124 Registered nodes and request bodies — partial

* Model: `Model/BlockchainNet`: the handlers with their request bodies, returning the outcome and the state left behind.
* Proof: Induction over the history, and over the batch.
* Theorems: `C124_nodes`, `C124_batch_partial`, `C124_batch_refuted`, `C124_bodies`.
* Result: C124_nodes and C124_bodies are proved in full. False for batches: an invalid address raises ValueError after the earlier ones have been registered (C124_batch_refuted); C124_batch_partial says exactly what a batch does.

### C125 Consensus spreads through a network — partial

* Model: `Model/BlockchainNet`: nodes by number, each answering with its chain; `consensus` of one node after another.
* Proof: One run keeps validity and takes the maximum of the lengths known; induction over the rounds from the last, along a path.
* Theorems: `C125_spread`, `C125_lengths_partial`, `C125_ties_refuted`, `C125_chains_partial`, `C125_one_miner_partial`.
* Result: Proved: monotone lengths, no new chains, spread at one hop per round (C125_spread), convergence of the lengths to the longest (C125_lengths_partial). Of the chains themselves: proved if all chains of the greatest length are the same (C125_chains_partial), which holds after any history in which one node mines (C125_one_miner_partial); false in general, since ties are never resolved (C125_ties_refuted).

### C126 Comparison of polynomials — partial

* Model: `Gauss.maxPoly` with the identity of coefficient objects as a parameter and the text of integers modulo p.
* Proof: Induction over the remaining coefficients, compared with the binary value of the coefficient list.
* Theorems: `C126_degree`, `C126_order_partial`, `C126_identity_refuted`, `C126_text_refuted`.
* Result: True of different degrees (C126_degree) and over Z/2 if equal coefficients are the same object (C126_order_partial). False otherwise: the loop compares objects by identity (C126_identity_refuted) and numbers by the first character of their text (C126_text_refuted).

### C127 Completeness of the proximity test over a multiplicative subgroup — partial

* Model: `SmoothFri.prove`, `SmoothFri.verify`: both methods of `SmoothSubgroupFRI` over Z/p with an arbitrary hash function.
* Proof: Induction over the layers: interpolation of rows, inverse transform of the column, openings, degree of the folded polynomial; monomials as counterexamples for other bounds.
* Theorems: `C127_completeness_partial`, `C127_bounds`, `C127_factor_refuted`, `C127_order_refuted`.
* Result: The class is commented out in the pinned commit and modelled as if it were not. True exactly for the bounds r*4^j with r <= 16 (C127_completeness_partial, C127_bounds). False for other bounds, because the code rounds down when it divides the bound by four; for more than 40 spot checks with two layers (C127_factor_refuted); and on domains of size 3*2^k the verifier does not end (C127_order_refuted).

### C128 Soundness of the proximity test over a multiplicative subgroup — partial

* Model: `SmoothFri.verify` on arbitrary proofs.
* Proof: Exact characterisation of a layer and of the last component; Merkle binding or a collision; the four inner nodes at depth two as a forged last component. Distance: four folds of one vector determine it (Lagrange interpolation in the challenge), so at most three challenges can bring it nearer to low degree; induction over the layers. Conversely, an accepted proof is built from any vectors that fold into each other at the drawn positions; zero vectors and a first vector that is zero in the drawn fibres.
* Theorems: `C128_round`, `C128_soundness_partial`, `C128_positions`, `C128_converse`, `C128_order_refuted`, `C128_distance_refuted`, `C128_soundness_refuted`, `C128_far`, `C128_layer`, `C128_acceptance_partial`, `C128_hashed_finite`.
* Result: False: every vector has an accepted proof, because the length of the last component is not checked (C128_soundness_refuted, C128_far). C128_layer says exactly what a layer checks; C128_acceptance_partial what acceptance means for proofs of the right shape. C128_round: for all challenges but three, folding brings a vector no nearer to low degree; C128_soundness_partial puts the layers together: an accepted proof of the right shape means a hash collision, a committed vector near low degree, one of three bad challenges, or draws that all miss a large set of wrong positions (counted in C128_positions). The last of these can be forced: the positions are drawn from the root of the folded vector alone and the challenge from that of the vector that is folded alone, so a prover chooses the folded vector first (C128_order_refuted, for proofs of exactly the right shape; C128_distance_refuted gives vectors far from low degree). C128_converse: the characterisation of accepted proofs of the right shape is exact.

### C129 Repeated points in an interpolation — partial

* Model: The four interpolation functions on arbitrary lists of points.
* Proof: The value of the returned polynomial at every point, from the formula for batch inversion with zeros.
* Theorems: `C129_lagrange_interp_refuted`, `C129_multi_interp_4_refuted`, `C129_specialised_partial`.
* Result: False for lagrange_interp and multi_interp_4: batch inversion turns a zero denominator into 1, so they return a polynomial that is 0 at every repeated point (C129_lagrange_interp_refuted, C129_multi_interp_4_refuted: the exact values at all points). True for the two specialised functions (C129_specialised_partial).

### C130 Proofs the prover makes go through compression — partial

* Model: The proofs returned by the models of generate_proximity_proof and mk_proof, passed to the models of compress_fri and compress_branches.
* Proof: Inversion of the prover: every node of a Merkle tree but the first is a digest or a leaf; the number of entries by recursion on the layers; exact condition for OverflowError in the compressor.
* Theorems: `C130_fri`, `C130_fri_size`, `C130_fri_partial`, `C130_branches`, `C130_stark_partial`, `C130_fri_refuted`.
* Result: Every object in a returned proof is one the format can carry (C130_fri, C130_branches), and the number of entries is given by the parameters (C130_fri_size). The branches of an honest STARK proof always fit, and its proof of proximity fits if the extension factor is at most 1024 times the degree (C130_stark_partial, C130_fri_partial). False in general: with 2^18 points or more and a small bound, compress_fri raises OverflowError on an honest proof (C130_fri_refuted). Together with C33_compress_fri_iff, which says exactly when it raises.

### C131 Rounds and recursion depth — proved

* Model: The loops and recursions of euclidean.py, numbertype.py, finitefield.py, utils.py, primality.py, fft.py and fri.py with their fuel as a counter.
* Proof: Two divisions halve the smaller number; induction on the number of bits; stability of the recursion under more fuel.
* Theorems: `C131_euclid`, `C131_pow`, `C131_pow_extension`, `C131_power_of_2`, `C131_fft`, `C131_prover`.
* Result: Fuel counts rounds or nested calls, so a bound says that every larger amount of fuel gives the same result. Exact for is_a_power_of_2, decompose and the Fourier transform (both directions); upper bounds for Euclid, powers and the prover. Negative exponents in an extension field (C06_pow_extension_negative) and is_a_power_of_2(0) have no bound at all and are excluded from the statement.

### C132 Spot checks hit bad positions with the expected probability — proved

* Model: get_pseudorandom_indices with a hash function that is drawn at random.
* Proof: The points of the orbit of a random point under a random function are independent up to a repetition (count of the functions through given points); the words of the digests are a bijection with the tuples of words; count the tuples that miss.
* Theorems: `C132_spot_checks`, `C132_power_of_two`, `C132_excluded`.
* Result: Probability = fraction of the pairs (root, function on 32-byte strings). Exact split of the words when the size is a power of two (C132_power_of_two); C132_excluded for an excluded factor. The theorem is about the sampling alone: that the root of a dishonest prover is as good as random is the usual assumption and not part of it.

### C133 A combination of low degree means parts of low degree — partial

* Model: get_pseudorandom_ks and the two linear combinations, for every hash function.
* Proof: The coefficient of one degree is a polynomial of total degree 2 in the four challenges, non-zero by a Kronecker substitution; Schwartz-Zippel counts its zeros. For four or more columns, explicit columns that cancel identically.
* Theorems: `C133_few_challenges_partial`, `C133_probability_partial`, `C133_reused_labels_refuted`.
* Result: Proved for widths 1 to 3, as a count of challenges and as a probability. From width 4 on the property is false for every hash function: get_pseudorandom_ks gives the columns the labels of k1..k4 again, and C133_reused_labels_refuted exhibits, for every polynomial h, columns among which h is one and whose combination is zero whatever the hashes are. From width 10 on there is no combination (C52_combination_refuted).

### C134 A node keeps working whatever it is sent — partial

* Model: The node and its handlers over arbitrary JSON values: which Python operation raises what on which kind of value, and what has been assigned by then.
* Proof: Invariant: the chain is a list ending in a block. Acceptance by induction on the loop of valid_chain. Simulation with the typed model. Refutations: explicit answers, for every state and hash function.
* Theorems: `C134_serving_partial`, `C134_refused`, `C134_register`, `C134_register_list`, `C134_adopted`, `C134_adopted_iff`, `C134_junk_refuted`, `C134_rewards_refuted`, `C134_letters_refuted`, `C134_typed`.
* Result: Proved when the chains in answers end in a block (a dictionary with a proof and a numeric index): C134_serving_partial. How other bodies are refused, registering and the exact criterion of adoption are proved without that (C134_refused, C134_register, C134_register_list, C134_adopted, C134_adopted_iff), and the JSON model does what the typed one does on well-formed traffic (C134_typed). False in general: a peer makes any one-element list (or one-letter text) the chain, after which mining and transactions raise for ever, the latter after recording (C134_junk_refuted); failed requests to mine leave their rewards behind, paid by a later block (C134_rewards_refuted); a text as the list of nodes registers its letters (C134_letters_refuted).

### C135 Verification is cheap — proved

* Model: The two verifiers as functions of the hash function.
* Proof: A calculus of bounds: constant, call, composition, map over a list; applied to branches, index sampling, Merkle trees, layers. Sizes of generated proofs from C130.
* Theorems: `C135_fri`, `C135_stark`, `C135_witness`, `C135_fri_generated`, `C135_stark_generated`.
* Result: The calls are counted by what the outcome depends on: there is a list of so many inputs such that any hash function that agrees on them gives the same outcome (Spec/QueryCount.lean). The model leaves out the call get_pseudorandom_ks(m_root, 4) of verify_proof, whose result is not used: four calls more. The bound for generated proofs is for at most 40 spot checks per layer (the default, and what STARK uses) and values extended at most 1024 times.

### C136 Solving a system leaves it unchanged — partial

* Model: gauss with the list it leaves behind, and the check of the Moore kernel on that list.
* Proof: Back substitution changes only the last column, which ends as diagonal times solution; elimination of a triangular matrix changes nothing; the second call by the theorem on invertible systems.
* Theorems: `C136_left_refuted`, `C136_unchanged_partial`, `C136_diagonal_partial`, `C136_again_refuted`, `C136_twice_refuted`, `C136_moore_refuted`.
* Result: False: the list is overwritten by a triangular matrix and a last column of products (C136_left_refuted, all sizes), a second call in general returns another vector (C136_again_refuted: exactly when; C136_twice_refuted: a system modulo 7), and the check of the Moore kernel, made on the overwritten list, fails unless the part off the diagonal sends the solution to zero (C136_moore_refuted, all dimensions). True exactly for triangular systems whose right-hand sides are the products of diagonal and solution (C136_unchanged_partial), in particular diagonal ones (C136_diagonal_partial). Constant entries only.

### C137 Cost of inversion, interpolation and transforms — partial

* Model: The same functions once more in a monad that counts multiplications and inversions.
* Proof: Every counted function equals the plain one with its price attached, by induction; the rounds of a division are the non-zero coefficients of the quotient; the recursion of the transform solved in closed form.
* Theorems: `C137_multi_inv`, `C137_multi_interp_4`, `C137_interp_4_2`, `C137_polynomials`, `C137_lagrange`, `C137_lagrange_bounds`, `C137_lagrange_refuted`, `C137_fft`, `C137_mul_polys`.
* Result: False for lagrange_interp: its divisions by x - xs[i] invert the leading coefficient 1 once per non-zero coefficient of each quotient, so n points cost between n + 1 and n² + 1 inversions (C137_lagrange: exactly how many; C137_lagrange_refuted). True, with exact counts, for multi_inv, multi_interp_4, lagrange_interp_4, lagrange_interp_2, fft_1d and mul_polys. The counts are of the * and inverse() that the code evaluates on coefficients and values (Model/OpCount.lean); additions, and work inside one field operation, are not counted.

### C138 Proving costs a linear number of hash calls — proved

* Model: The provers of Model/Merkle, Model/SmoothFri and Model/Stark, as they are.
* Proof: The calculus of Spec/QueryCount: what is computed before the first call does not count, a tree over n items counts n - 1, the layers by induction with a quarter of the points each, so the sum stays below twice the first; exactness of the tree by changing the hash function at one pair of neighbours.
* Theorems: `C138_merkelize`, `C138_merkelize_exact`, `C138_fri`, `C138_fri_small`, `C138_stark`.
* Result: Calls are counted as in C135, by what the outcome depends on; repeated calls with the same input count once there, and the proofs count every call. C138_merkelize_exact: the n - 1 of a tree cannot be lowered when the hashed pairs are different. The bound for the proximity proof assumes that the degree bound is not above the number of points; the one for the STARK is for valid executions (for others the polynomials of the quotients can be longer, C48).

### C139 Decompressing data from an untrusted sender — partial

* Model: The decompressors of Model/Compression, as they are, on any list.
* Proof: Inversion of the reading loops by induction on the fuel: what has been read so far is the written-out form of what has been returned; the refutations by explicit families of data.
* Theorems: `C139_fri`, `C139_fri_objects`, `C139_branches`, `C139_exceptions`, `C139_unique_refuted`, `C139_expansion_refuted`, `C139_wire_partial`, `C139_wire_length`, `C139_wire_refuted`.
* Result: Three clauses are false of the code and refuted: different data give the same proof (C139_unique_refuted: every proof with a repetition is accepted in full and in compressed form), the size of the result is not bounded by a multiple of the data (C139_expansion_refuted, for every factor), and the counted bytes are ambiguous once there are 11566 entries (C139_wire_refuted: a separator reads as two references). C139_wire_partial: with references below 11051 they determine the list. The other clauses hold: C139_exceptions, C139_fri, C139_fri_objects, C139_branches (whose last separator may be missing).

### C140 The binary fields of the tests and tutorials — partial

* Model: isIrreducible, isPrimitive, finiteField and the powers of Model/FiniteField, as they are.
* Proof: A polynomial over a finite field whose root has order q^m - 1 is primitive (all non-zero residues are powers of it, so they are units); the order from the powers for the prime factors of 2^m - 1, computed by the kernel on numbers whose bits are the coefficients, with a proof that this computes in the residue ring.
* Theorems: `C140_fields_partial`, `C140_nine_refuted`, `C140_wrong_degree_refuted`, `C140_size_refuted`, `C140_size_64_refuted`.
* Result: x^9+x+1 is irreducible but not primitive, X**73 is 1 (C140_nine_refuted); the commented-out test that asserts it passes because it asks with the degree 2, for which is_primitive answers True for every irreducible polynomial (C140_wrong_degree_refuted); and is_primitive builds the power before it reduces it, with more than 2*10^12 coefficients for m = 64 (C140_size_refuted, C140_size_64_refuted). The other four polynomials are as described (C140_fields_partial).

### C141 What the verifier of the 3-coloring protocol learns — partial

* Model: commit_to_coloring and reveal_colors of Model/Commitment, as they are.
* Proof: Exactly one permutation of three colours takes two given colours to two given ones; for two colourings, a bijection of the draws that moves the permutation accordingly and exchanges a secret for its partner where a committed bit changes.
* Theorems: `C141_colors`, `C141_zero_knowledge_partial`, `C141_non_edge`, `C141_queries_refuted`, `C141_injective_refuted`.
* Result: The two opened colours are a uniform pair of different colours (C141_colors) and non-edges are refused (C141_non_edge). Everything received has the same distribution for any two proper colourings if the commitments hide perfectly (C141_zero_knowledge_partial); those of the code do not, being injective on its secrets (C141_injective_refuted), so there the secrecy rests on the hardness of extracting square roots, which is not expressible here. The prover answers any number of queries under one commitment, which together give away a colouring (C141_queries_refuted).

### C142 Proofs are short — partial

* Model: The compressors of Model/Compression, the provers of Model/SmoothFri and Model/Stark, as they are.
* Proof: Invariant of the compressor: its table holds the entries seen, its output has the size of the specification. Shape of a branch: a leaf, its neighbour, then hashes of 32 bytes, from the layers of the tree; the leaves of the first tree are at most 3 values per register.
* Theorems: `C142_fri_size`, `C142_branches_size`, `C142_never_longer_partial`, `C142_never_longer_refuted`, `C142_generated_fri`, `C142_generated_fri_short`, `C142_stark`.
* Result: The exact size holds for every proof (C142_fri_size, C142_branches_size). "Never longer" is false for byte strings of one byte or none, whose back references are longer than they are (C142_never_longer_refuted), and true for all others (C142_never_longer_partial). The bound for proofs of proximity holds for every bound d (C142_generated_fri, in terms of the number of entries, whose last component is the whole remaining domain) and is quadratic in k when 2^k ≤ 1024 (d + 1) (C142_generated_fri_short). The bound for the whole proof is for executions whose outputs are not zero, as in C74; its proximity part needs 2^b ≤ 1024 deg (C142_stark).

### C143 Sessions of the 3-coloring protocol — proved

* Model: The attributes of the prover and verifier objects as records; a call returns the new object together with its outcome.
* Proof: The attributes after any history are those of the last call that sets them, by induction on the history; then C64 for the round that is open.
* Theorems: `C143_opens_last`, `C143_accepted`, `C143_stale`, `C143_no_edge_chosen`, `C143_failed_commit`.

### C144 One commitment object used several times — partial

* Model: Successive calls of commit on one object: commitInt with the same secrets.
* Proof: A commitment is the list of the bits of the integer, each added to the predicate of its secret; the predicates cancel in the sum of two; exchanging the secrets of the bits of a mask is a bijection of the draws.
* Theorems: `C144_all_open`, `C144_hiding_refuted`, `C144_exact_partial`, `C144_single_use_partial`.
* Result: All commitments open (C144_all_open). They do not hide: two commitments of one object give away the exclusive or of their integers to anyone (C144_hiding_refuted), so opening one opens all. If the secrets come in pairs that only the predicate tells apart, this is exactly what they give away (C144_exact_partial), and an object used once hides (C144_single_use_partial); for the secrets of the code, on which squaring is injective, hiding rests on the hardness of square roots, see C141_injective_refuted.

### C145 The isomorphism is a secret of the prover — partial

* Model: the protocol of C59 with any list as the secret; `opposite`/`guess` (Spec/SecretIsomorphism) read one list of edges against the other
* Proof: acceptance on challenge 2 forces `G2 = rename iso G1` as lists; then position by position
* Theorems: `C145_secret_refuted`, `C145_impostor_refuted`, `C145_isolated_partial`.
* Result: the full property is false: the secret can be read off the two public graphs (C145_secret_refuted), and the list read off makes an accepted prover (C145_impostor_refuted); what stays secret is proved exactly (C145_isolated_partial)

### C146 A false execution is caught by the spot checks — proved

* Model: Model/Stark.verifyProof, Model/Utils.getPseudorandomIndices; hash functions random on 32-byte strings, arbitrary elsewhere (Spec/SpotChecks)
* Proof: the positions at which the relations hold are fewer than the degrees unless the polynomials execute (the argument of C76); C132 bounds the probability that all drawn positions are among them
* Theorems: `C146_caught`, `C146_half`, `C146_commits`.
* Result: C146_caught bounds the probability for any degrees, C146_half for those the proximity test is about, with no execution ending in the claimed output as the hypothesis. C146_commits: the root of the tree over the values is such a commitment unless a hash collision can be read off. The order matters: a prover that chooses the polynomials after the second root is not caught (C75_forgery), since the code does not derive the second root from the first.

### C147 The order of the terms of a multivariate polynomial is not observable — proved

* Model: Model/MvOrder: dictionaries in insertion order, the order of the set in `__add__` an argument; `Computes n e d`: the runs of an expression
* Proof: induction over the run: the stored dictionary has distinct keys and no zero, and denotes `denote n e`; its sorted form is then determined (C40)
* Theorems: `C147_runs`, `C147_values`, `C147_comparison`.
* Result: C147_runs: any two runs agree; C147_values: what a run yields, in terms of the denoted polynomial; C147_comparison: == and rebuilding from iteration. The text of a polynomial does show the order (C118_multivariate_refuted).

### C148 Binary fields compute with words — proved

* Model: the operators of C12 over Z/2; `clmul` and `reduce` on natural numbers (Spec/Words) as the specification
* Proof: the polynomial of a word turns exclusive or into +, shifts into multiplication by x^i; remainders are unique
* Theorems: `C148_words`, `C148_operators`, `C148_division`.
* Result: C148_words: elements are words; C148_operators holds for every modulus, irreducible or not; C148_division for irreducible ones.

### C149 No prover of bounded means can change a committed value — proved

* Model: the functions of C29-C31; provers are decision trees over hash calls (Spec/Provers), hash functions arbitrary above n bytes
* Proof: birthday bound by induction over the tree of calls: a call at a new string splits the hash functions into fibres of equal size; the verification and the building of the tree are appended to the prover as further calls; C31 gives the collision
* Theorems: `C149_binding`, `C149_opening`.
* Result: C149_binding: any openings shown after at most q calls; C149_opening: honest trees. Leaves of different lengths are not compared: verify_branch does not check lengths (C31_merkle_binding_refuted).

### C150 The hash of a block determines the block — partial

* Model: `json.dumps(sort_keys=True)` with `ensure_ascii`, `hexdigest`, the f-string of `valid_proof` (Model/ChainHash); texts of numbers open; `Same` (Spec/JsonText) as the specification
* Proof: the JSON text is a prefix code: by induction over the value, a text followed by `,`, `]`, `}` or nothing can be read back in one way; sorted lists with the same entries are equal
* Theorems: `C150_text`, `C150_hash`, `C150_guess_partial`, `C150_guess_refuted`.
* Result: C150_text, C150_hash: in full, for texts of numbers that are injective, begin like numbers and contain no comma or bracket (ints proved to be so: intText_ok). C150_guess_refuted: the string of valid_proof does not determine the two proofs; C150_guess_partial: what it determines.

### C151 The hash of the last block commits to the whole chain — partial

* Model: `valid_chain` of C134 with the hashes of C150
* Proof: induction from the last block backwards: equal hashes give equal blocks or a collision, equal blocks have equal previous hashes; the birthday bound of C149
* Theorems: `C151_commits_partial`, `C151_suffix_partial`, `C151_suffix_refuted`, `C151_prover_partial`.
* Result: C151_suffix_refuted: the end of a valid chain is a valid chain with the same last hash. C151_commits_partial and C151_prover_partial: with first blocks that carry no hash; C151_suffix_partial: with any first blocks.

### C152 Proof of work costs what it says — proved

* Model: `proof_of_work` and `valid_chain` with the hashes of C150, hash functions drawn at random as in C149
* Proof: digests with four leading zeros are one in 65536; hash functions are counted fibre by fibre over the values of the hashes seen; expected number of k-subsets of successful calls by induction over the tree of calls
* Theorems: `C152_attempts`, `C152_distribution`, `C152_forgery`.
* Result: C152_attempts and C152_distribution: exact probabilities; C152_forgery: the bound for every adaptive program.

### C153 A refused proof is refused with an AssertionError, and every verification ends — partial

* Model: the verifiers as in C51 and C127; `FriShape`, `TrueOrAssertion` (Spec/Refusal)
* Proof: outcome analysis through every function the verifiers call: where an exception other than `AssertionError` could come from, the shape rules it out; termination from the order of the root of unity
* Theorems: `C153_fri_partial`, `C153_fri_shape`, `C153_generated_shape`, `C153_stark_partial`, `C153_stark_shape`, `C153_refuted`, `C153_stark_refuted`.
* Result: C153_refuted and C153_stark_refuted: proofs of the wrong shape raise IndexError, ZeroDivisionError, OverflowError. C153_fri_partial, C153_stark_partial: for every proof, these and AssertionError are all that can happen besides True. C153_fri_shape, C153_stark_shape: only AssertionError for proofs of the right shape, which by C153_generated_shape the provers make.

### C154 Finding the secret of a commitment is as hard as factoring the modulus — partial

* Model: `bbs`, `commitBit`, `commitColoring`, `blumBlumShub`; `coprimes`, `Splits` (Spec/Factoring)
* Proof: the root of 1 that is 1 modulo one prime and -1 modulo the other pairs successes that factor with successes that do not; draws of secrets are matched with draws of squares by an injection; no reduction takes place below the modulus; 2^1279 - 1 is prime by the Lucas-Lehmer test
* Theorems: `C154_square_roots`, `C154_secret_partial`, `C154_root_refuted`, `C154_coloring_refuted`, `C154_generator_refuted`.
* Result: C154_square_roots: exactly half, for every inverter. C154_secret_partial: for secrets whose root is drawn uniformly. C154_root_refuted, C154_coloring_refuted, C154_generator_refuted: the draws of the code have a fixed number of bits, and a modulus of four times as many bits opens the commitments to everybody; such moduli occur.

### C155 The search for a modulus ends and finds primes, up to a small probability — proved

* Model: `findGoodPrime`, `makeModulus`; `Bases`, `Candidates`, `density` (Spec/PrimeSearch)
* Proof: the error bound of C80 for each candidate, draws for different candidates being independent; union bound; a candidate that is such a prime ends the search
* Theorems: `C155_prime`, `C155_modulus`, `C155_ends`, `C155_density`.
* Result: C155_prime, C155_modulus: the answer is right up to the error of the primality test; C155_ends, C155_density: the search ends.

### C156 Changing a block of a chain takes the work of the blocks on top of it — partial

* Model: `validChain` with the hashes of C150; `Past`, `Future`, `Made` (Spec/Rewriting)
* Proof: equal guesses mean equal hashes of the blocks before, hence equal chains up to there (C151); the bounds of C149 and C152 on programs, with the values at known strings fixed
* Theorems: `C156_last_refuted`, `C156_work_partial`, `C156_attack_partial`.
* Result: C156_last_refuted: the last block can be replaced without work. C156_work_partial: no work is taken over for later blocks; C156_attack_partial: the bound, for the blocks after the changed one, given everything hashed before.

### C157 A transaction a node has accepted is not lost or repeated — partial

* Model: `netServe`, `newNet` (Model/BlockchainWorld): requests to the nodes of a network, one at a time; `mined`, `acceptedAt` (Spec/Ledger)
* Proof: invariant of a network with one miner (its chain is a longest one, so it never takes one over); induction over the history of a node; explicit histories for the refutations, for every hash function
* Theorems: `C157_lost_refuted`, `C157_twice_refuted`, `C157_adoption_partial`, `C157_kept_partial`, `C157_one_miner_partial`.
* Result: C157_lost_refuted, C157_twice_refuted: with two honest nodes a mined transaction disappears from the whole network, or ends up in two blocks of a valid chain. C157_adoption_partial: exactly what taking over a chain does. C157_kept_partial: nothing is lost while new chains hold the transactions of the old ones. C157_one_miner_partial: the property in full if one node mines.

### C158 Every block creates one coin, and nobody spends more than they have — partial

* Model: `serve`, `conc`; `Payment`, `balance` (Spec/Ledger)
* Proof: invariant of the blocks of a node; a chain with given payments is built block by block; explicit requests for the refutations
* Theorems: `C158_coins_partial`, `C158_balance_refuted`, `C158_consensus_refuted`, `C158_overlap_refuted`.
* Result: C158_balance_refuted: after any history, one submission and one block give any account any balance. C158_consensus_refuted: any payments can be in a chain that is taken over. C158_overlap_refuted: two coins in one block, none in the next. C158_coins_partial: one coin per block without consensus and without submissions from 0.

### C159 Mining and consensus at the same time — partial

* Model: `qstep`, `qrun` (Model/BlockchainResolve): requests in progress, divided at their calls to the peers; `Busy`, `NoOverlap`, `Truthful` (Spec/Overlap)
* Proof: invariant: a request in progress holds the last block of the chain, or a valid chain that is longer, and nobody else changes the chain meanwhile; explicit schedules for the refutations, for every hash function
* Theorems: `C159_exclusive_partial`, `C159_adopted_partial`, `C159_shorter_refuted`, `C159_invalid_refuted`.
* Result: C159_shorter_refuted: n + 1 blocks are replaced by 2, with a truthful peer, for every n. C159_invalid_refuted: one /mine and one /nodes/resolve request make an invalid chain. C159_exclusive_partial: valid and never shorter without overlap. C159_adopted_partial: for every schedule, a chain taken over is valid. new_transaction and new_block are atomic here (C84, C85 are about single accesses), and no node is registered while peers are asked.

### C160 The order in which peers are asked does not matter — partial

* Model: `resolve` of `Model/Blockchain`, answers as a list in the order of the set; `Spec/Peers`: `Best`, one of the offers with the greatest claimed length.
* Proof: The loop ends with a best offer (induction); being one does not depend on the order. Witnesses for ties and empty chains, for every hash function.
* Theorems: `C160_best`, `C160_order_partial`, `C160_length_partial`, `C160_ties_refuted`, `C160_raises_refuted`, `C160_unreachable`.
* Result: C160_best: what a call ends with, for all answers. C160_order_partial: the same value in every order, and the same chain if the best offers are one chain; C160_length_partial: chains of the same length if the peers are truthful; C160_unreachable: an unreachable peer makes the call raise in every order. C160_ties_refuted: of two longest chains that of the peer asked first is taken. C160_raises_refuted: a peer that sends no block makes the call raise or not, depending on the order.

### C161 Boundary constraints mean what they say — partial

* Model: `mkProof`, `verifyProof` (Model/Stark); `Holds`, `firstValues` (Spec/Boundary)
* Proof: congruence of both functions in the list; two lines that agree at the last step and at a sampled point are equal; the remainder of the division by (x-1)(x-last) is a line that vanishes at the last step and so at no sampled point
* Theorems: `C161_read`, `C161_values_partial`, `C161_enforced_refuted`, `C161_order_refuted`.
* Result: C161_read: nothing else is read, for all arguments. C161_values_partial: these values are enforced, for every accepted proof. C161_enforced_refuted: every constraint that does not hold is accepted at the end of the list. C161_order_refuted: proofs made with values in other places are refused, with every hash function and proximity test.

### C162 A proof proves one statement — partial

* Model: `verifyProof` (Model/Stark); `firstValues`, `lastEntries` (Spec/Boundary)
* Proof: the check of the boundary fixes the value of the line through input and output at the sampled point; lines that agree at two points are equal; with one point there is a line through every input
* Theorems: `C162_half_partial`, `C162_statement_partial`, `C162_random_partial`, `C162_eighty_partial`, `C162_one_position_refuted`.
* Result: C162_statement_partial: one statement at most when two different positions are sampled. C162_half_partial: inputs and outputs determine each other, for any sample. C162_random_partial, C162_eighty_partial: with a random root no proof is accepted for two statements, up to a probability of 2^-78 for 80 spot checks. C162_one_position_refuted: with one position, any inputs.

### C163 A long computation can be run in pieces — proved

* Model: `getTrace` (Model/Air); `IsStep` (Spec/Air)
* Proof: both sides are characterised by C44; lists are cut at m; equal states have equal successors; pigeonhole on the q^width states
* Theorems: `C163_pieces`, `C163_repeats`, `C163_cycle`.
* Result: C163_pieces: an equivalence, so also the exceptions agree. C163_repeats, C163_cycle.

### C164 A Merkle root stands for one list — partial

* Model: `merkelize`, `verifyBranch` (Model/Merkle); `HashedInTree` (Spec/Merkle)
* Proof: equality of nodes goes down from the root, level by level, unless there is a collision; upwards, a tree is the upper part of the tree of its children
* Theorems: `C164_lists_partial`, `C164_ints`, `C164_levels_refuted`, `C164_sizes_refuted`.
* Result: C164_lists_partial: lists of the same length with encodings of the same sizes; C164_ints: lists of ints. C164_levels_refuted: for every list of at least eight items there is a shorter one with the same root, whatever the hash function. C164_sizes_refuted: encodings of different sizes.

### C165 A proof cannot be altered — partial

* Model: `verifyProof` (Model/Stark), `verifyBranch` (Model/Merkle); `verify` (Model/SmoothFri); `hashedByVerification` (Spec/Merkle), `HashedInFri`, `readOf` (Spec/AlteredFri)
* Proof: two runs of verifyBranch with the same result are compared from the root down; the sampled positions depend on the roots only; conversely H((v+c)+q) = H(v+(c+q))
* Theorems: `C165_branch_partial`, `C165_proof_partial`, `C165_appended_refuted`, `C165_moved_refuted`, `C165_fri_partial`, `C165_zeros_refuted`.
* Result: C165_branch_partial: one opening, C165_proof_partial: all branches of a STARK proof that are read, C165_fri_partial: everything that is read of a proof of proximity of SmoothSubgroupFRI; for strings of the same sizes. C165_appended_refuted, C165_moved_refuted, C165_zeros_refuted: three ways to alter every accepted proof, whatever the hash function.

### C166 A proof proves one computation — partial

* Model: `verifyProof` (Model/Stark); `IsOpened`, `SameStep` (Spec/Program), `IsStep` (Spec/Air)
* Proof: the transition check determines the next state from the two opened leaves, so both lists give the same; the sampled positions by C132; computations that differ at one state of a trace differ at almost all positions, by degree
* Theorems: `C166_opened`, `C166_exact`, `C166_apart_partial`, `C166_random_partial`, `C166_program_refuted`, `C166_agreeing_refuted`, `C166_trace_partial`, `C166_half_partial`.
* Result: C166_opened, C166_exact: when a proof is accepted for two computations, for all proofs. C166_apart_partial: computations that agree nowhere; C166_random_partial: random second root and hash function, given what the first root commits to; C166_trace_partial: given that it commits to a trace on which the computations differ somewhere, C166_half_partial: a half for each spot check if the extension factor exceeds three times the degree. C166_program_refuted: a false claim accepted with one spot check; C166_agreeing_refuted: two true claims with one proof.

### C167 Committed values differ almost everywhere — proved

* Model: `nbFft`, `nbInvFft` (Model/FFT), `lagrangeInterp` (Model/PolyUtils)
* Proof: C24 and C47 give the values of one polynomial of degree below n; two such polynomials agree at fewer than n points; adding a product of linear factors changes nothing at their roots
* Theorems: `C167_distance`, `C167_systematic`, `C167_decoding`, `C167_tight`.
* Result: C167_systematic, C167_distance, C167_decoding, C167_tight; all sizes the transform admits (C24_other_sizes says what happens for the others).

### C168 Values add, multiply and rotate as polynomials do — proved

* Model: `nbFft`, `nbInvFft` (Model/FFT), `add`, `sub`, `neg`, `mul` (Model/Polynomial)
* Proof: C24 turns every transform into values at the powers of the root, where evaluation is a ring homomorphism; C25 gives the way back
* Theorems: `C168_sum`, `C168_product`, `C168_wrap`, `C168_rotate`, `C168_injective`.
* Result: C168_sum, C168_product, C168_wrap, C168_rotate, C168_injective; all sizes the transform admits.

### C169 Laws of interpolation — proved

* Model: `lagrangeInterp` (Model/PolyUtils)
* Proof: the result as a sum of one term per point, which depends on the point and on the multiset of all points; the last two laws by uniqueness of the interpolant (C20)
* Theorems: `C169_order`, `C169_linear`, `C169_reproduces`, `C169_extra`, `C169_repeated`.
* Result: C169_order, C169_linear, C169_reproduces, C169_extra. C169_repeated: a further point must be different from the others, for a repeated one the last law fails.

### C170 The vanishing polynomial of a subspace is additive — proved

* Model: `affineIter`, `affineVanishing` (Model/ReedSolomon)
* Proof: the product over the items, by induction on the basis, is the polynomial built by `q ↦ q^p - q(b)^(p-1) q`; additivity and sparseness from the powers of p in characteristic p
* Theorems: `C170_additive`, `C170_shift`, `C170_sparse`, `C170_step`, `C170_fold`, `C170_fibres`.
* Result: C170_additive, C170_shift, C170_sparse, C170_step, C170_fold, C170_fibres. Scalars in an extension field are excluded, the code raises there (C23).

### C171 A vanishing polynomial stands for its space — proved

* Model: `affineIter`, `affineVanishing` (Model/ReedSolomon), `divmod` (Model/Polynomial)
* Proof: the items of two independent bases are permutations of each other (C22); the roots give the space back; different linear factors are coprime; for dependent bases by induction on the recurrence of C170
* Theorems: `C171_basis`, `C171_determines`, `C171_split`, `C171_divides`, `C171_dependent`.
* Result: C171_basis, C171_determines, C171_split, C171_divides, C171_dependent. Scalars in an extension field are excluded, the code raises there (C23).

### C172 Sums over an affine space — proved

* Model: `affineIter`, `affineVanishing` (Model/ReedSolomon), `lagrangeInterp` (Model/PolyUtils)
* Proof: the derivative of the vanishing polynomial is constant (C170), so the denominators of Lagrange interpolation are all the same; the parity checks by induction on the number of leading coefficients that are 0
* Theorems: `C172_sum`, `C172_zero`, `C172_parity`, `C172_dependent`, `C172_distance`.
* Result: C172_sum, C172_zero, C172_parity, C172_dependent, C172_distance. Scalars in an extension field are excluded, the code raises there (C23).

### C173 Parity checks of values at the powers of a root — proved

* Model: `nbFft`, `nbInvFft`, `fft1d` (Model/FFT)
* Proof: the inverse transform is the transform at the inverse root divided by n, whose items are the sums of the checks; orthogonality of the powers for the sum
* Theorems: `C173_coefficient`, `C173_sum`, `C173_parity`.
* Result: C173_sum, C173_coefficient, C173_parity, for every prime characteristic; C173_sum for every field.

## Axioms of each theorem

As printed by `#print axioms` (regenerated at every milestone). No other axiom occurs.

**none** (2 theorems): `C53_inequality_refuted`, `C158_overlap_refuted`.

**`propext`** (18 theorems): `C17_kwargs_collide`, `C17_kwargs_refuted`, `C36_modulus_too_large`, `C66_indices_refuted`, `C68_unreachable_refuted`, `C69_valid_refuted`, `C83_index_refuted`, `C84_conserved_refuted`, `C85_immutable_refuted`, `C86_mimc_modulus`, `C112_to_bytes_refuted`, `C117_rational_operand_refuted`, `C117_comparison_refuted`, `C117_divisor_refuted`, `C124_batch_refuted`, `C124_bodies`, `C139_wire_length`, `C142_never_longer_refuted`.

**`Quot.sound`, `propext`** (25 theorems): `C03_bytes_constructor`, `C06_pow_negative`, `C17_memoize_positional_partial`, `C18_multi_inv_single_inversion`, `C23_affine_vanishing_extension_refuted`, `C30_small_trees_raise`, `C60_challenges`, `C60_soundness_refuted`, `C62_bit`, `C63_binding_injective_partial`, `C66_mine`, `C67_conserved`, `C67_resolve_loses`, `C68_longest_partial`, `C68_adopted`, `C79_all_accepted`, `C85_immutable_partial`, `C85_immutable_concurrent_partial`, `C101_proof_refuted`, `C113_nat_partial`, `C124_nodes`, `C124_batch_partial`, `C139_wire_partial`, `C159_adopted_partial`, `C160_unreachable`.

**`Classical.choice`, `Quot.sound`, `propext`** (599 theorems): `C01_modp_arithmetic`, `C01_modp_field`, `C02_inverse`, `C02_division`, `C03_bytes_roundtrip`, `C04_gcd_int`, `C04_extended_euclid_int`, `C05_gcd_poly`, `C05_extended_euclid_poly`, `C06_pow_extension`, `C06_pow_extension_negative`, `C06_pow_multivariate`, `C06_pow`, `C06_pow_modp`, `C06_pow_poly`, `C07_powmod`, `C07_powmod_edge`, `C08_results_canonical`, `C08_canonical_queries`, `C09_ring_operations`, `C09_ring_isomorphism`, `C10_divmod`, `C10_divmod_zero`, `C11_call_is_evaluation`, `C11_call_homomorphism`, `C11_call_composition_partial`, `C11_extension_composition_refuted`, `C12_extension_field`, `C12_construction`, `C13_inverse`, `C14_is_irreducible`, `C14_constants`, `C15_is_primitive`, `C15_is_primitive_x`, `C16_generate_irreducible`, `C16_is_monic`, `C16_generate_irreducible_returns`, `C16_generate_primitive_partial`, `C16_generate_primitive_refuted`, `C18_multi_inv_partial`, `C18_multi_inv_zero_refuted`, `C18_multi_inv_falsy_zero`, `C19_zpoly`, `C20_lagrange_interp`, `C20_lagrange_interp_lengths`, `C21_lagrange_interp_4`, `C21_lagrange_interp_2`, `C21_multi_interp_4`, `C22_affine_space`, `C22_affine_space_len`, `C23_affine_vanishing_partial`, `C23_affine_vanishing_in_extension`, `C24_fft`, `C24_other_sizes`, `C24_large_degree`, `C25_inverse_fft`, `C26_mul_polys_partial`, `C26_mul_polys_actual`, `C26_mul_polys_refuted`, `C27_power_cycle`, `C27_power_cycle_modp`, `C28_permute4`, `C29_merkelize_structure`, `C29_leaf_encoding`, `C30_merkle_completeness`, `C31_merkle_binding_partial`, `C31_opening_is_item_partial`, `C31_merkle_binding_refuted`, `C32_unpack`, `C32_pack_open_unpack`, `C33_compress_fri_iff`, `C33_compress_fri_roundtrip`, `C34_compress_branches_iff`, `C34_compress_branches_roundtrip`, `C35_compress_fri_never_corrupts`, `C35_compress_branches_never_corrupts`, `C35_decompress_terminates`, `C36_indices`, `C36_indices_exclude`, `C36_indices_unbiased`, `C36_indices_prefix`, `C36_no_index_left`, `C37_is_a_power_of_2`, `C38_pseudorandom_ks`, `C39_constructors`, `C39_ring_ops`, `C39_evaluation`, `C39_evaluation_hom`, `C40_canonical`, `C40_unique_representative`, `C41_generate_Xi_s`, `C41_make_multivar_partial`, `C41_make_multivar_refuted`, `C41_project_to_univariate_partial`, `C41_project_to_univariate_refuted`, `C42_dirac_delta`, `C42_other_lengths`, `C43_actual`, `C43_functions_to_polynomials_partial`, `C43_two_variables_refuted`, `C43_two_variables_wrong_value_refuted`, `C43_extension_refuted`, `C44_trace`, `C44_total`, `C45_constraints`, `C45_circuit`, `C45_air_accepts`, `C45_constructor`, `C46_witness_boundary`, `C47_trace_polynomials`, `C47_short_columns`, `C47_other_sizes`, `C47_air_steps`, `C48_remainder_partial`, `C48_zero_step_refuted`, `C48_remainder_refuted`, `C48_extension_field_refuted`, `C49_boundary_partial`, `C49_boundary_refuted`, `C50_degree_refuted`, `C50_spot_checks_partial`, `C51_what_acceptance_means`, `C51_all_positions`, `C52_combination_partial`, `C52_combination_refuted`, `C52_extension_field_refuted`, `C53_constructor`, `C53_operations`, `C53_division`, `C53_equality`, `C53_onto`, `C53_zero_denominator`, `C53_bytes_roundtrip`, `C54_LT`, `C55_add_binary_nums`, `C55_regular_binary_addition`, `C56_two_pow_partial`, `C56_two_pow_actual`, `C56_two_pow_refuted`, `C57_equality_partial`, `C57_equality_refuted`, `C57_zero`, `C57_division_by_zero`, `C57_subtraction_refuted`, `C57_subtraction_partial`, `C57_mul_comm_partial`, `C57_mul_comm_refuted`, `C58_adfft_m1`, `C58_adfft_partial`, `C58_adfft_m1_refuted`, `C58_adfft_refuted`, `C58_adfft_m2_actual`, `C58_adfft_m2_zero_refuted`, `C58_adfft_inverse_ignores_values`, `C58_adfft_inverse_actual`, `C58_adfft_inverse_m1_refuted`, `C58_adfft_inverse_refuted`, `C59_exact_partial`, `C59_zero_vertex_refuted`, `C59_completeness_partial`, `C59_completeness_spanning`, `C59_isolated_refuted`, `C59_edge_order_refuted`, `C60_forgery_refuted`, `C60_soundness_partial`, `C61_simulator_partial`, `C61_simulator_refuted`, `C62_int`, `C62_out_of_range`, `C63_binding_refuted`, `C63_binding_residue_partial`, `C63_int_binding_partial`, `C63_int_truncation_refuted`, `C64_outcome`, `C64_completeness`, `C64_improper_rejected`, `C65_prime_accepted`, `C65_rejects_composite`, `C65_decompose`, `C65_factor_exposes`, `C66_valid`, `C66_valid_chain`, `C66_indices_partial`, `C68_length_refuted`, `C68_empty_refuted`, `C69_tree_partial`, `C69_exclusive_partial`, `C70_mimc`, `C70_mimc_rounds_permute`, `C71_int_coefficients_refuted`, `C71_int_coefficients_partial`, `C71_equality`, `C71_transitivity_refuted`, `C72_bin_length`, `C73_default_modulus`, `C73_parameters_partial`, `C73_modp`, `C73_parameters_refuted`, `C74_smooth`, `C74_degree_refuted`, `C74_completeness_partial`, `C74_completeness_refuted`, `C75_smooth_refuted`, `C75_forgery`, `C75_soundness_refuted`, `C76_algebraic_soundness`, `C77_exponentiation`, `C78_add_comm`, `C78_add_fixed_partial`, `C78_add_fixed_refuted`, `C78_mul_fixed_partial`, `C78_mul_fixed_refuted`, `C79_outcome`, `C79_rounds`, `C79_negative_tolerance`, `C80_error_probability`, `C81_permutation`, `C81_good_prime`, `C81_parity`, `C82_soundness_refuted`, `C82_bbs_forgery_refuted`, `C82_soundness_partial`, `C83_index_partial`, `C84_conserved_partial`, `C84_serial_partial`, `C86_modulus`, `C86_root`, `C86_computation`, `C87_gauss_partial`, `C87_gauss_refuted`, `C87_gauss_elements_refuted`, `C88_moore_refuted`, `C88_moore_elements_refuted`, `C88_check_refuted`, `C89_constructor`, `C90_boundary_partial`, `C90_boundary_refuted`, `C91_witness_partial`, `C91_witness_refuted`, `C92_rates_partial`, `C92_rates_refuted`, `C92_floats_partial`, `C92_underflow_refuted`, `C93_points_distinct_iff`, `C93_neighbours_partial`, `C93_neighbours_refuted`, `C94_constraints_refuted`, `C94_tilde_refuted`, `C94_every_constraint_refuted`, `C94_tilde_partial`, `C94_tilde_general_refuted`, `C94_first_constraint_partial`, `C94_first_constraints_refuted`, `C95_commit_partial`, `C95_commit_refuted`, `C95_errors_refuted`, `C95_size_refuted`, `C96_rounds_refuted`, `C96_completeness_partial`, `C96_no_round_refuted`, `C96_completeness_refuted`, `C97_soundness_refuted`, `C97_verdict_refuted`, `C97_no_round_refuted`, `C98_hex_to_bin`, `C98_select_random_partial`, `C98_select_random_refuted`, `C99_subspace_partial`, `C99_subspace_refuted`, `C100_folding`, `C101_code_partial`, `C102_constraint_refuted`, `C102_constraint_partial`, `C102_every_apr_refuted`, `C103_operators_partial`, `C103_expressions_partial`, `C103_equality_partial`, `C103_right_operand_partial`, `C103_extension_polynomials_refuted`, `C103_prime_field_elements_refuted`, `C103_left_operand_refuted`, `C104_over_prime_field_partial`, `C104_over_extension_field_partial`, `C104_composition_refuted`, `C105_over_prime_field_partial`, `C105_over_extension_field_partial`, `C105_polynomial_arguments_refuted`, `C105_arity`, `C106_field_division_partial`, `C106_polynomial_division_partial`, `C106_zero_divisor`, `C106_division_by_int_refuted`, `C106_extension_polynomials_refuted`, `C107_own_text_refuted`, `C107_index_zero_refuted`, `C107_repeated_refuted`, `C107_reads_partial`, `C107_constants`, `C107_signs_refuted`, `C107_end_refuted`, `C107_leading_minus_refuted`, `C107_two_digit_index_refuted`, `C107_terminates`, `C107_large_index_refuted`, `C108_exact_quotient_partial`, `C108_modular_refuted`, `C108_power_refuted`, `C108_remainder`, `C109_constants_partial`, `C109_refuted`, `C109_constant_receiver_refuted`, `C110_call`, `C110_call_multi`, `C110_arguments`, `C111_refuted`, `C111_example_refuted`, `C112_read_partial`, `C112_merkle_refuted`, `C112_unreduced_refuted`, `C113_verify_refuted`, `C113_open_refuted`, `C113_index_error_partial`, `C114_search_partial`, `C114_diverges_refuted`, `C114_tiny_refuted`, `C114_composite_refuted`, `C114_generator_partial`, `C115_first_partial`, `C115_history_refuted`, `C115_positional_refuted`, `C115_degree_refuted`, `C115_malformed`, `C115_degree_keyword_refuted`, `C116_digits_partial`, `C116_alias_refuted`, `C116_struct_refuted`, `C116_regression_refuted`, `C116_lost_bit_refuted`, `C117_operators_partial`, `C117_reflected_partial`, `C117_division_partial`, `C117_moduli_refuted`, `C117_bytes_refuted`, `C118_modp`, `C118_polynomials`, `C118_extension_fields`, `C118_rationals_refuted`, `C118_multivariate_refuted`, `C119_divmod_modp`, `C119_modp`, `C119_divmod_extension`, `C119_extension`, `C120_agreement_refuted`, `C120_address_refuted`, `C120_commit_partial`, `C121_rejected_partial`, `C121_polynomials_refuted`, `C121_elements_refuted`, `C122_list_refuted`, `C122_stale_refuted`, `C122_answers_partial`, `C123_transcript_accepted`, `C123_sent_graph_partial`, `C123_distribution_refuted`, `C125_spread`, `C125_lengths_partial`, `C125_ties_refuted`, `C125_chains_partial`, `C125_one_miner_partial`, `C126_degree`, `C126_order_partial`, `C126_identity_refuted`, `C126_text_refuted`, `C127_completeness_partial`, `C127_bounds`, `C127_factor_refuted`, `C127_order_refuted`, `C128_round`, `C128_soundness_partial`, `C128_positions`, `C128_converse`, `C128_order_refuted`, `C128_distance_refuted`, `C128_soundness_refuted`, `C128_far`, `C128_layer`, `C128_acceptance_partial`, `C128_hashed_finite`, `C129_lagrange_interp_refuted`, `C129_multi_interp_4_refuted`, `C129_specialised_partial`, `C130_fri`, `C130_fri_size`, `C130_fri_partial`, `C130_branches`, `C130_stark_partial`, `C130_fri_refuted`, `C131_euclid`, `C131_pow`, `C131_pow_extension`, `C131_power_of_2`, `C131_fft`, `C131_prover`, `C132_spot_checks`, `C132_power_of_two`, `C132_excluded`, `C133_few_challenges_partial`, `C133_probability_partial`, `C133_reused_labels_refuted`, `C134_serving_partial`, `C134_refused`, `C134_register`, `C134_register_list`, `C134_adopted`, `C134_adopted_iff`, `C134_junk_refuted`, `C134_rewards_refuted`, `C134_letters_refuted`, `C134_typed`, `C135_fri`, `C135_stark`, `C135_witness`, `C135_fri_generated`, `C135_stark_generated`, `C136_left_refuted`, `C136_unchanged_partial`, `C136_diagonal_partial`, `C136_again_refuted`, `C136_twice_refuted`, `C136_moore_refuted`, `C137_multi_inv`, `C137_multi_interp_4`, `C137_interp_4_2`, `C137_polynomials`, `C137_lagrange`, `C137_lagrange_bounds`, `C137_lagrange_refuted`, `C137_fft`, `C137_mul_polys`, `C138_merkelize`, `C138_merkelize_exact`, `C138_fri`, `C138_fri_small`, `C138_stark`, `C139_fri`, `C139_fri_objects`, `C139_branches`, `C139_exceptions`, `C139_unique_refuted`, `C139_expansion_refuted`, `C139_wire_refuted`, `C140_fields_partial`, `C140_nine_refuted`, `C140_wrong_degree_refuted`, `C140_size_refuted`, `C140_size_64_refuted`, `C141_colors`, `C141_zero_knowledge_partial`, `C141_non_edge`, `C141_queries_refuted`, `C141_injective_refuted`, `C142_fri_size`, `C142_branches_size`, `C142_never_longer_partial`, `C142_generated_fri`, `C142_generated_fri_short`, `C142_stark`, `C143_opens_last`, `C143_accepted`, `C143_stale`, `C143_no_edge_chosen`, `C143_failed_commit`, `C144_all_open`, `C144_hiding_refuted`, `C144_exact_partial`, `C144_single_use_partial`, `C145_secret_refuted`, `C145_impostor_refuted`, `C145_isolated_partial`, `C146_caught`, `C146_half`, `C146_commits`, `C147_runs`, `C147_values`, `C147_comparison`, `C148_words`, `C148_operators`, `C148_division`, `C149_binding`, `C149_opening`, `C150_text`, `C150_hash`, `C150_guess_partial`, `C150_guess_refuted`, `C151_commits_partial`, `C151_suffix_partial`, `C151_suffix_refuted`, `C151_prover_partial`, `C152_attempts`, `C152_distribution`, `C152_forgery`, `C153_fri_partial`, `C153_fri_shape`, `C153_generated_shape`, `C153_stark_partial`, `C153_stark_shape`, `C153_refuted`, `C153_stark_refuted`, `C154_square_roots`, `C154_secret_partial`, `C154_root_refuted`, `C154_coloring_refuted`, `C154_generator_refuted`, `C155_prime`, `C155_modulus`, `C155_ends`, `C155_density`, `C156_last_refuted`, `C156_work_partial`, `C156_attack_partial`, `C157_lost_refuted`, `C157_twice_refuted`, `C157_adoption_partial`, `C157_kept_partial`, `C157_one_miner_partial`, `C158_coins_partial`, `C158_balance_refuted`, `C158_consensus_refuted`, `C159_exclusive_partial`, `C159_shorter_refuted`, `C159_invalid_refuted`, `C160_best`, `C160_order_partial`, `C160_length_partial`, `C160_ties_refuted`, `C160_raises_refuted`, `C161_read`, `C161_values_partial`, `C161_enforced_refuted`, `C161_order_refuted`, `C162_half_partial`, `C162_statement_partial`, `C162_random_partial`, `C162_eighty_partial`, `C162_one_position_refuted`, `C163_pieces`, `C163_repeats`, `C163_cycle`, `C164_lists_partial`, `C164_ints`, `C164_levels_refuted`, `C164_sizes_refuted`, `C165_branch_partial`, `C165_proof_partial`, `C165_appended_refuted`, `C165_moved_refuted`, `C165_fri_partial`, `C165_zeros_refuted`, `C166_opened`, `C166_exact`, `C166_apart_partial`, `C166_random_partial`, `C166_program_refuted`, `C166_agreeing_refuted`, `C166_trace_partial`, `C166_half_partial`, `C167_distance`, `C167_systematic`, `C167_decoding`, `C167_tight`, `C168_sum`, `C168_product`, `C168_wrap`, `C168_rotate`, `C168_injective`, `C169_order`, `C169_linear`, `C169_reproduces`, `C169_extra`, `C169_repeated`, `C170_additive`, `C170_shift`, `C170_sparse`, `C170_step`, `C170_fold`, `C170_fibres`, `C171_basis`, `C171_determines`, `C171_split`, `C171_divides`, `C171_dependent`, `C172_sum`, `C172_zero`, `C172_parity`, `C172_dependent`, `C172_distance`, `C173_coefficient`, `C173_sum`, `C173_parity`.
