{
 "claims": [
  {
   "property": "C01",
   "status": "proved",
   "theorems": [
    "Verif.Props.C01_modp_arithmetic",
    "Verif.Props.C01_modp_field"
   ],
   "note": ""
  },
  {
   "property": "C02",
   "status": "proved",
   "theorems": [
    "Verif.Props.C02_inverse",
    "Verif.Props.C02_division"
   ],
   "note": ""
  },
  {
   "property": "C03",
   "status": "proved",
   "theorems": [
    "Verif.Props.C03_bytes_roundtrip",
    "Verif.Props.C03_bytes_constructor"
   ],
   "note": ""
  },
  {
   "property": "C04",
   "status": "proved",
   "theorems": [
    "Verif.Props.C04_gcd_int",
    "Verif.Props.C04_extended_euclid_int"
   ],
   "note": ""
  },
  {
   "property": "C05",
   "status": "proved",
   "theorems": [
    "Verif.Props.C05_gcd_poly",
    "Verif.Props.C05_extended_euclid_poly"
   ],
   "note": ""
  },
  {
   "property": "C06",
   "status": "proved",
   "theorems": [
    "Verif.Props.C06_pow_extension",
    "Verif.Props.C06_pow_extension_negative",
    "Verif.Props.C06_pow_multivariate",
    "Verif.Props.C06_pow",
    "Verif.Props.C06_pow_modp",
    "Verif.Props.C06_pow_poly",
    "Verif.Props.C06_pow_negative"
   ],
   "note": ""
  },
  {
   "property": "C07",
   "status": "proved",
   "theorems": [
    "Verif.Props.C07_powmod",
    "Verif.Props.C07_powmod_edge"
   ],
   "note": ""
  },
  {
   "property": "C08",
   "status": "proved",
   "theorems": [
    "Verif.Props.C08_results_canonical",
    "Verif.Props.C08_canonical_queries"
   ],
   "note": ""
  },
  {
   "property": "C09",
   "status": "proved",
   "theorems": [
    "Verif.Props.C09_ring_operations",
    "Verif.Props.C09_ring_isomorphism"
   ],
   "note": ""
  },
  {
   "property": "C10",
   "status": "proved",
   "theorems": [
    "Verif.Props.C10_divmod",
    "Verif.Props.C10_divmod_zero"
   ],
   "note": ""
  },
  {
   "property": "C11",
   "status": "partial",
   "theorems": [
    "Verif.Props.C11_call_is_evaluation",
    "Verif.Props.C11_call_homomorphism",
    "Verif.Props.C11_call_composition_partial",
    "Verif.Props.C11_extension_composition_refuted"
   ],
   "note": "Evaluation at elements and the homomorphism property are proved; composition is proved over Z/p and the rationals, and raises TypeError over the extension fields (C11_extension_composition_refuted)."
  },
  {
   "property": "C12",
   "status": "proved",
   "theorems": [
    "Verif.Props.C12_extension_field",
    "Verif.Props.C12_construction"
   ],
   "note": ""
  },
  {
   "property": "C13",
   "status": "proved",
   "theorems": [
    "Verif.Props.C13_inverse"
   ],
   "note": ""
  },
  {
   "property": "C14",
   "status": "proved",
   "theorems": [
    "Verif.Props.C14_is_irreducible",
    "Verif.Props.C14_constants"
   ],
   "note": ""
  },
  {
   "property": "C15",
   "status": "proved",
   "theorems": [
    "Verif.Props.C15_is_primitive",
    "Verif.Props.C15_is_primitive_x"
   ],
   "note": ""
  },
  {
   "property": "C16",
   "status": "partial",
   "theorems": [
    "Verif.Props.C16_generate_irreducible",
    "Verif.Props.C16_is_monic",
    "Verif.Props.C16_generate_irreducible_returns",
    "Verif.Props.C16_generate_primitive_partial",
    "Verif.Props.C16_generate_primitive_refuted"
   ],
   "note": "Proved for degrees above 1; for degree 1 the polynomial x is returned, whose class has order 0."
  },
  {
   "property": "C17",
   "status": "partial",
   "theorems": [
    "Verif.Props.C17_memoize_positional_partial",
    "Verif.Props.C17_kwargs_collide",
    "Verif.Props.C17_kwargs_refuted"
   ],
   "note": "Holds for every history of positional calls; keyword values are not part of the cache key, so the full statement is false (C17_kwargs_refuted, C17_kwargs_collide)."
  },
  {
   "property": "C18",
   "status": "partial",
   "theorems": [
    "Verif.Props.C18_multi_inv_partial",
    "Verif.Props.C18_multi_inv_single_inversion",
    "Verif.Props.C18_multi_inv_zero_refuted",
    "Verif.Props.C18_multi_inv_falsy_zero"
   ],
   "note": "Non-zero entries are inverted whatever zeros appear elsewhere; at zero positions the code returns 1 instead of 0 (C18_multi_inv_zero_refuted)."
  },
  {
   "property": "C19",
   "status": "proved",
   "theorems": [
    "Verif.Props.C19_zpoly"
   ],
   "note": ""
  },
  {
   "property": "C20",
   "status": "proved",
   "theorems": [
    "Verif.Props.C20_lagrange_interp",
    "Verif.Props.C20_lagrange_interp_lengths"
   ],
   "note": ""
  },
  {
   "property": "C21",
   "status": "proved",
   "theorems": [
    "Verif.Props.C21_lagrange_interp_4",
    "Verif.Props.C21_lagrange_interp_2",
    "Verif.Props.C21_multi_interp_4"
   ],
   "note": ""
  },
  {
   "property": "C22",
   "status": "proved",
   "theorems": [
    "Verif.Props.C22_affine_space",
    "Verif.Props.C22_affine_space_len"
   ],
   "note": ""
  },
  {
   "property": "C23",
   "status": "partial",
   "theorems": [
    "Verif.Props.C23_affine_vanishing_partial",
    "Verif.Props.C23_affine_vanishing_in_extension",
    "Verif.Props.C23_affine_vanishing_extension_refuted"
   ],
   "note": "Proved for scalars in Z/p, elements of any vector space and a cast into any field (so for the library's own uses, C23_affine_vanishing_in_extension). With scalars in an extension field the code raises AttributeError (C23_affine_vanishing_extension_refuted)."
  },
  {
   "property": "C24",
   "status": "proved",
   "theorems": [
    "Verif.Props.C24_fft",
    "Verif.Props.C24_other_sizes",
    "Verif.Props.C24_large_degree"
   ],
   "note": ""
  },
  {
   "property": "C25",
   "status": "proved",
   "theorems": [
    "Verif.Props.C25_inverse_fft"
   ],
   "note": ""
  },
  {
   "property": "C26",
   "status": "partial",
   "theorems": [
    "Verif.Props.C26_mul_polys_partial",
    "Verif.Props.C26_mul_polys_actual",
    "Verif.Props.C26_mul_polys_refuted"
   ],
   "note": "False: the 1/n of the inverse transform is missing, so the result is n times the product (C26_mul_polys_refuted), taken modulo X^n - 1 if it does not fit the domain (C26_mul_polys_actual). The claim holds where n = 1 in the field."
  },
  {
   "property": "C27",
   "status": "proved",
   "theorems": [
    "Verif.Props.C27_power_cycle",
    "Verif.Props.C27_power_cycle_modp"
   ],
   "note": ""
  },
  {
   "property": "C28",
   "status": "proved",
   "theorems": [
    "Verif.Props.C28_permute4"
   ],
   "note": ""
  },
  {
   "property": "C29",
   "status": "proved",
   "theorems": [
    "Verif.Props.C29_merkelize_structure",
    "Verif.Props.C29_leaf_encoding"
   ],
   "note": ""
  },
  {
   "property": "C30",
   "status": "proved",
   "theorems": [
    "Verif.Props.C30_merkle_completeness",
    "Verif.Props.C30_small_trees_raise"
   ],
   "note": ""
  },
  {
   "property": "C31",
   "status": "partial",
   "theorems": [
    "Verif.Props.C31_merkle_binding_partial",
    "Verif.Props.C31_opening_is_item_partial",
    "Verif.Props.C31_merkle_binding_refuted"
   ],
   "note": "Proved for openings of equal length; false in general because the lengths of leaves are not checked."
  },
  {
   "property": "C32",
   "status": "proved",
   "theorems": [
    "Verif.Props.C32_unpack",
    "Verif.Props.C32_pack_open_unpack"
   ],
   "note": ""
  },
  {
   "property": "C33",
   "status": "proved",
   "theorems": [
    "Verif.Props.C33_compress_fri_iff",
    "Verif.Props.C33_compress_fri_roundtrip"
   ],
   "note": ""
  },
  {
   "property": "C34",
   "status": "proved",
   "theorems": [
    "Verif.Props.C34_compress_branches_iff",
    "Verif.Props.C34_compress_branches_roundtrip"
   ],
   "note": ""
  },
  {
   "property": "C35",
   "status": "proved",
   "theorems": [
    "Verif.Props.C35_compress_fri_never_corrupts",
    "Verif.Props.C35_compress_branches_never_corrupts",
    "Verif.Props.C35_decompress_terminates"
   ],
   "note": ""
  },
  {
   "property": "C36",
   "status": "proved",
   "theorems": [
    "Verif.Props.C36_indices",
    "Verif.Props.C36_indices_exclude",
    "Verif.Props.C36_indices_unbiased",
    "Verif.Props.C36_indices_prefix",
    "Verif.Props.C36_modulus_too_large",
    "Verif.Props.C36_no_index_left"
   ],
   "note": ""
  },
  {
   "property": "C37",
   "status": "proved",
   "theorems": [
    "Verif.Props.C37_is_a_power_of_2"
   ],
   "note": ""
  },
  {
   "property": "C38",
   "status": "proved",
   "theorems": [
    "Verif.Props.C38_pseudorandom_ks"
   ],
   "note": ""
  },
  {
   "property": "C39",
   "status": "proved",
   "theorems": [
    "Verif.Props.C39_constructors",
    "Verif.Props.C39_ring_ops",
    "Verif.Props.C39_evaluation",
    "Verif.Props.C39_evaluation_hom"
   ],
   "note": ""
  },
  {
   "property": "C40",
   "status": "proved",
   "theorems": [
    "Verif.Props.C40_canonical",
    "Verif.Props.C40_unique_representative"
   ],
   "note": ""
  },
  {
   "property": "C41",
   "status": "partial",
   "theorems": [
    "Verif.Props.C41_generate_Xi_s",
    "Verif.Props.C41_make_multivar_partial",
    "Verif.Props.C41_make_multivar_refuted",
    "Verif.Props.C41_project_to_univariate_partial",
    "Verif.Props.C41_project_to_univariate_refuted"
   ],
   "note": "Proved for all non-zero polynomials; for the zero polynomial make_multivar and project_to_univariate return the int 0, which cannot be evaluated."
  },
  {
   "property": "C42",
   "status": "proved",
   "theorems": [
    "Verif.Props.C42_dirac_delta",
    "Verif.Props.C42_other_lengths"
   ],
   "note": ""
  },
  {
   "property": "C43",
   "status": "partial",
   "theorems": [
    "Verif.Props.C43_actual",
    "Verif.Props.C43_functions_to_polynomials_partial",
    "Verif.Props.C43_two_variables_refuted",
    "Verif.Props.C43_two_variables_wrong_value_refuted",
    "Verif.Props.C43_extension_refuted"
   ],
   "note": "Proved for one variable over Z/p. C43_actual says what is computed in general; the property is false for two or more variables and for extension fields."
  },
  {
   "property": "C44",
   "status": "proved",
   "theorems": [
    "Verif.Props.C44_trace",
    "Verif.Props.C44_total"
   ],
   "note": ""
  },
  {
   "property": "C45",
   "status": "proved",
   "theorems": [
    "Verif.Props.C45_constraints",
    "Verif.Props.C45_circuit",
    "Verif.Props.C45_air_accepts",
    "Verif.Props.C45_constructor"
   ],
   "note": ""
  },
  {
   "property": "C46",
   "status": "proved",
   "theorems": [
    "Verif.Props.C46_witness_boundary"
   ],
   "note": ""
  },
  {
   "property": "C47",
   "status": "proved",
   "theorems": [
    "Verif.Props.C47_trace_polynomials",
    "Verif.Props.C47_short_columns",
    "Verif.Props.C47_other_sizes",
    "Verif.Props.C47_air_steps"
   ],
   "note": ""
  },
  {
   "property": "C48",
   "status": "partial",
   "theorems": [
    "Verif.Props.C48_remainder_partial",
    "Verif.Props.C48_zero_step_refuted",
    "Verif.Props.C48_remainder_refuted",
    "Verif.Props.C48_extension_field_refuted"
   ],
   "note": "Proved over Z/p for all witnesses whose column is not constant in the coordinates with a zero step polynomial; with a zero step polynomial and a constant column the prover raises TypeError on every valid trace (C48_zero_step_refuted). Over extension fields the constructions always raise TypeError (C48_extension_field_refuted)."
  },
  {
   "property": "C49",
   "status": "partial",
   "theorems": [
    "Verif.Props.C49_boundary_partial",
    "Verif.Props.C49_boundary_refuted"
   ],
   "note": "Proved when the outputs are not zero; if an output is zero the prover raises IndexError (C49_boundary_refuted)."
  },
  {
   "property": "C50",
   "status": "partial",
   "theorems": [
    "Verif.Props.C50_degree_refuted",
    "Verif.Props.C50_spot_checks_partial"
   ],
   "note": "Proved for widths below 10, non-zero outputs and step polynomials of degree at most extension_factor+1 (C49 and C52 say what happens for the first two). Nothing checks the degree; C50_degree_refuted is a valid execution of too high a degree whose honest proof fails at every sampled position."
  },
  {
   "property": "C51",
   "status": "proved",
   "theorems": [
    "Verif.Props.C51_what_acceptance_means",
    "Verif.Props.C51_all_positions"
   ],
   "note": ""
  },
  {
   "property": "C52",
   "status": "partial",
   "theorems": [
    "Verif.Props.C52_combination_partial",
    "Verif.Props.C52_combination_refuted",
    "Verif.Props.C52_extension_field_refuted"
   ],
   "note": "Proved over Z/p for widths 1 to 9; from 10 coordinates on the code raises TypeError (C52_combination_refuted). Over extension fields it raises TypeError (C52_extension_field_refuted)."
  },
  {
   "property": "C53",
   "status": "partial",
   "theorems": [
    "Verif.Props.C53_constructor",
    "Verif.Props.C53_operations",
    "Verif.Props.C53_division",
    "Verif.Props.C53_equality",
    "Verif.Props.C53_inequality_refuted",
    "Verif.Props.C53_onto",
    "Verif.Props.C53_zero_denominator",
    "Verif.Props.C53_bytes_roundtrip"
   ],
   "note": "Everything holds except `!=`, which always raises NameError (C53_inequality_refuted)."
  },
  {
   "property": "C54",
   "status": "proved",
   "theorems": [
    "Verif.Props.C54_LT"
   ],
   "note": ""
  },
  {
   "property": "C55",
   "status": "proved",
   "theorems": [
    "Verif.Props.C55_add_binary_nums",
    "Verif.Props.C55_regular_binary_addition"
   ],
   "note": ""
  },
  {
   "property": "C56",
   "status": "partial",
   "theorems": [
    "Verif.Props.C56_two_pow_partial",
    "Verif.Props.C56_two_pow_actual",
    "Verif.Props.C56_two_pow_refuted"
   ],
   "note": "Proved where it holds; C56_two_pow_actual says what the code computes and C56_two_pow_refuted where it is wrong."
  },
  {
   "property": "C57",
   "status": "partial",
   "theorems": [
    "Verif.Props.C57_equality_partial",
    "Verif.Props.C57_equality_refuted",
    "Verif.Props.C57_zero",
    "Verif.Props.C57_division_by_zero",
    "Verif.Props.C57_subtraction_refuted",
    "Verif.Props.C57_subtraction_partial",
    "Verif.Props.C57_mul_comm_partial",
    "Verif.Props.C57_mul_comm_refuted"
   ],
   "note": "Equality, subtraction and commutativity hold under the stated conditions and are false otherwise (the _refuted theorems give the witnesses)."
  },
  {
   "property": "C58",
   "status": "partial",
   "theorems": [
    "Verif.Props.C58_adfft_m1",
    "Verif.Props.C58_adfft_partial",
    "Verif.Props.C58_adfft_m1_refuted",
    "Verif.Props.C58_adfft_refuted",
    "Verif.Props.C58_adfft_m2_actual",
    "Verif.Props.C58_adfft_m2_zero_refuted",
    "Verif.Props.C58_adfft_inverse_ignores_values",
    "Verif.Props.C58_adfft_inverse_actual",
    "Verif.Props.C58_adfft_inverse_m1_refuted",
    "Verif.Props.C58_adfft_inverse_refuted"
   ],
   "note": "The additive FFT is wrong; the theorems say where it is right, what it computes instead and give counterexamples."
  },
  {
   "property": "C59",
   "status": "partial",
   "theorems": [
    "Verif.Props.C59_exact_partial",
    "Verif.Props.C59_zero_vertex_refuted",
    "Verif.Props.C59_completeness_partial",
    "Verif.Props.C59_completeness_spanning",
    "Verif.Props.C59_isolated_refuted",
    "Verif.Props.C59_edge_order_refuted"
   ],
   "note": "Proved when the largest vertex number of the two graphs is the same (always so when every vertex has an edge, C59_completeness_spanning) and the edges are listed in the same order; false otherwise (C59_isolated_refuted, C59_edge_order_refuted, C59_zero_vertex_refuted). C59_exact_partial gives the exact outcome of a run for every list used as isomorphism."
  },
  {
   "property": "C60",
   "status": "partial",
   "theorems": [
    "Verif.Props.C60_challenges",
    "Verif.Props.C60_soundness_refuted",
    "Verif.Props.C60_forgery_refuted",
    "Verif.Props.C60_soundness_partial"
   ],
   "note": "False: injectivity of the answer is not checked, so any two graphs with as many edges are accepted (C60_forgery_refuted). Proved for injective answers."
  },
  {
   "property": "C61",
   "status": "partial",
   "theorems": [
    "Verif.Props.C61_simulator_partial",
    "Verif.Props.C61_simulator_refuted"
   ],
   "note": "False: the simulator returns the permutation instead of its inverse. C61_simulator_partial says exactly which transcripts are accepted."
  },
  {
   "property": "C62",
   "status": "proved",
   "theorems": [
    "Verif.Props.C62_bit",
    "Verif.Props.C62_int",
    "Verif.Props.C62_out_of_range"
   ],
   "note": ""
  },
  {
   "property": "C63",
   "status": "partial",
   "theorems": [
    "Verif.Props.C63_binding_refuted",
    "Verif.Props.C63_binding_injective_partial",
    "Verif.Props.C63_binding_residue_partial",
    "Verif.Props.C63_int_binding_partial",
    "Verif.Props.C63_int_truncation_refuted"
   ],
   "note": "False for every modulus (C63_binding_refuted). Proved for injective one-way functions and for openings that are reduced quadratic residues. For integers it also fails with an injective one-way function because an opening may have fewer secrets than there are commitments (C63_int_truncation_refuted); openings of equal length agree (C63_int_binding_partial)."
  },
  {
   "property": "C64",
   "status": "proved",
   "theorems": [
    "Verif.Props.C64_outcome",
    "Verif.Props.C64_completeness",
    "Verif.Props.C64_improper_rejected"
   ],
   "note": ""
  },
  {
   "property": "C65",
   "status": "proved",
   "theorems": [
    "Verif.Props.C65_prime_accepted",
    "Verif.Props.C65_rejects_composite",
    "Verif.Props.C65_decompose",
    "Verif.Props.C65_factor_exposes"
   ],
   "note": ""
  },
  {
   "property": "C66",
   "status": "partial",
   "theorems": [
    "Verif.Props.C66_valid",
    "Verif.Props.C66_valid_chain",
    "Verif.Props.C66_indices_partial",
    "Verif.Props.C66_indices_refuted",
    "Verif.Props.C66_mine"
   ],
   "note": "Validity and proof of work hold for every history. Indices count up as long as the chains peers answer do; an adopted chain is not checked for that (C66_indices_refuted)."
  },
  {
   "property": "C67",
   "status": "proved",
   "theorems": [
    "Verif.Props.C67_conserved",
    "Verif.Props.C67_resolve_loses"
   ],
   "note": ""
  },
  {
   "property": "C68",
   "status": "partial",
   "theorems": [
    "Verif.Props.C68_longest_partial",
    "Verif.Props.C68_adopted",
    "Verif.Props.C68_length_refuted",
    "Verif.Props.C68_empty_refuted",
    "Verif.Props.C68_unreachable_refuted"
   ],
   "note": "Proved when peers state the true lengths of their chains. The claimed length is trusted, so the chain can be replaced by a shorter one; one bad or unreachable peer makes the call raise (the _refuted theorems)."
  },
  {
   "property": "C69",
   "status": "partial",
   "theorems": [
    "Verif.Props.C69_valid_refuted",
    "Verif.Props.C69_tree_partial",
    "Verif.Props.C69_exclusive_partial"
   ],
   "note": "False (C69_valid_refuted). For every schedule the chain is a tree of valid links; it is valid when no two /mine requests overlap."
  },
  {
   "property": "C70",
   "status": "proved",
   "theorems": [
    "Verif.Props.C70_mimc",
    "Verif.Props.C70_mimc_rounds_permute"
   ],
   "note": ""
  },
  {
   "property": "C71",
   "status": "partial",
   "theorems": [
    "Verif.Props.C71_int_coefficients_refuted",
    "Verif.Props.C71_int_coefficients_partial",
    "Verif.Props.C71_equality",
    "Verif.Props.C71_transitivity_refuted"
   ],
   "note": "False for int coefficients that are non-zero multiples of the characteristic; proved for all others. C71_equality says when two dictionaries with int coefficients compare equal; this is not transitive (C71_transitivity_refuted)."
  },
  {
   "property": "C72",
   "status": "proved",
   "theorems": [
    "Verif.Props.C72_bin_length"
   ],
   "note": ""
  },
  {
   "property": "C73",
   "status": "partial",
   "theorems": [
    "Verif.Props.C73_default_modulus",
    "Verif.Props.C73_parameters_partial",
    "Verif.Props.C73_modp",
    "Verif.Props.C73_parameters_refuted"
   ],
   "note": "Proved when 7^((p-1)/precision) has order precision; otherwise IndexError. C73_parameters_refuted: nothing checks that precision divides p-1."
  },
  {
   "property": "C74",
   "status": "partial",
   "theorems": [
    "Verif.Props.C74_smooth",
    "Verif.Props.C74_degree_refuted",
    "Verif.Props.C74_completeness_partial",
    "Verif.Props.C74_completeness_refuted"
   ],
   "note": "Proved under the hypotheses of C50 for at most 80 spot checks; for more the verifier raises IndexError (C74_completeness_refuted), and for step polynomials of higher degree honest proofs can be refused (C74_degree_refuted). C74_smooth is the statement with SmoothSubgroupFRI as the proximity test, end to end."
  },
  {
   "property": "C75",
   "status": "partial",
   "theorems": [
    "Verif.Props.C75_smooth_refuted",
    "Verif.Props.C75_forgery",
    "Verif.Props.C75_soundness_refuted"
   ],
   "note": "False: the verifier does not link the combination to the other commitments, so every claim has an accepted proof (C75_forgery, C75_soundness_refuted, and C75_smooth_refuted with SmoothSubgroupFRI as the proximity test). C76 is the part of the argument that holds."
  },
  {
   "property": "C76",
   "status": "proved",
   "theorems": [
    "Verif.Props.C76_algebraic_soundness"
   ],
   "note": ""
  },
  {
   "property": "C77",
   "status": "proved",
   "theorems": [
    "Verif.Props.C77_exponentiation"
   ],
   "note": ""
  },
  {
   "property": "C78",
   "status": "partial",
   "theorems": [
    "Verif.Props.C78_add_comm",
    "Verif.Props.C78_add_fixed_partial",
    "Verif.Props.C78_add_fixed_refuted",
    "Verif.Props.C78_mul_fixed_partial",
    "Verif.Props.C78_mul_fixed_refuted"
   ],
   "note": "Addition commutes for all floats. The fixed-point value of a sum or product is the sum or product only under the stated conditions; refuted in general."
  },
  {
   "property": "C79",
   "status": "proved",
   "theorems": [
    "Verif.Props.C79_outcome",
    "Verif.Props.C79_rounds",
    "Verif.Props.C79_negative_tolerance",
    "Verif.Props.C79_all_accepted"
   ],
   "note": ""
  },
  {
   "property": "C80",
   "status": "proved",
   "theorems": [
    "Verif.Props.C80_error_probability"
   ],
   "note": ""
  },
  {
   "property": "C81",
   "status": "proved",
   "theorems": [
    "Verif.Props.C81_permutation",
    "Verif.Props.C81_good_prime",
    "Verif.Props.C81_parity"
   ],
   "note": ""
  },
  {
   "property": "C82",
   "status": "partial",
   "theorems": [
    "Verif.Props.C82_soundness_refuted",
    "Verif.Props.C82_bbs_forgery_refuted",
    "Verif.Props.C82_soundness_partial"
   ],
   "note": "False for every loop-free graph (C82_soundness_refuted) and, through the commitments, for every graph (C82_bbs_forgery_refuted). The partial theorem gives a 4-colouring under the stated conditions."
  },
  {
   "property": "C83",
   "status": "partial",
   "theorems": [
    "Verif.Props.C83_index_partial",
    "Verif.Props.C83_index_refuted"
   ],
   "note": "Proved for histories without resolve_conflicts; false with it (C83_index_refuted)."
  },
  {
   "property": "C84",
   "status": "partial",
   "theorems": [
    "Verif.Props.C84_conserved_partial",
    "Verif.Props.C84_serial_partial",
    "Verif.Props.C84_conserved_refuted"
   ],
   "note": "Proved for every interleaving of atomic new_transaction/new_block calls, and at the grain of single accesses for requests one after the other; false for interrupted new_block calls (C84_conserved_refuted)."
  },
  {
   "property": "C85",
   "status": "partial",
   "theorems": [
    "Verif.Props.C85_immutable_partial",
    "Verif.Props.C85_immutable_concurrent_partial",
    "Verif.Props.C85_immutable_refuted"
   ],
   "note": "Proved for every history and for every interleaving of atomic calls; false at the grain of single accesses (C85_immutable_refuted)."
  },
  {
   "property": "C86",
   "status": "proved",
   "theorems": [
    "Verif.Props.C86_mimc_modulus",
    "Verif.Props.C86_modulus",
    "Verif.Props.C86_root",
    "Verif.Props.C86_computation"
   ],
   "note": ""
  },
  {
   "property": "C87",
   "status": "partial",
   "theorems": [
    "Verif.Props.C87_gauss_partial",
    "Verif.Props.C87_gauss_refuted",
    "Verif.Props.C87_gauss_elements_refuted"
   ],
   "note": "Proved for constant entries over every field (size unbounded, whatever the pivot order). False for entries of positive degree, where / drops remainders (C87_gauss_refuted), and for field elements (AttributeError)."
  },
  {
   "property": "C88",
   "status": "partial",
   "theorems": [
    "Verif.Props.C88_moore_refuted",
    "Verif.Props.C88_moore_elements_refuted",
    "Verif.Props.C88_check_refuted"
   ],
   "note": "False whenever the function returns (C88_moore_refuted, C88_moore_elements_refuted): the result has at most d coefficients. For two constants the assertion fails although the kernel is right, because it is checked against the matrix changed by the elimination (C88_check_refuted)."
  },
  {
   "property": "C89",
   "status": "proved",
   "theorems": [
    "Verif.Props.C89_constructor"
   ],
   "note": ""
  },
  {
   "property": "C90",
   "status": "partial",
   "theorems": [
    "Verif.Props.C90_boundary_partial",
    "Verif.Props.C90_boundary_refuted"
   ],
   "note": "False for every AIR with two registers or more (C90_boundary_refuted): the register of a constraint is ignored. Proved when all constraints concern one register."
  },
  {
   "property": "C91",
   "status": "partial",
   "theorems": [
    "Verif.Props.C91_witness_partial",
    "Verif.Props.C91_witness_refuted"
   ],
   "note": "False for every AIR with two registers or more and a non-zero input (C91_witness_refuted). With one register: exactly when the trace is constant."
  },
  {
   "property": "C92",
   "status": "partial",
   "theorems": [
    "Verif.Props.C92_rates_partial",
    "Verif.Props.C92_rates_refuted",
    "Verif.Props.C92_floats_partial",
    "Verif.Props.C92_underflow_refuted"
   ],
   "note": "Bounds proved for the exact quotients (C92_rates_partial) and for the floats next to them (C92_floats_partial: at most 1/2, positive while q^(26+k) <= 2^1074). Over larger fields every rate underflows to 0.0 (C92_underflow_refuted; with the default k from q = 2^58 on). The rates are not relative to the sizes of L and Lcmp over proper extensions, and L cannot be enumerated (C92_rates_refuted)."
  },
  {
   "property": "C93",
   "status": "partial",
   "theorems": [
    "Verif.Props.C93_points_distinct_iff",
    "Verif.Props.C93_neighbours_partial",
    "Verif.Props.C93_neighbours_refuted"
   ],
   "note": "Distinctness: exact condition (C93_points_distinct_iff). Neighbours: proved in characteristic 2, false in odd characteristic when the degree exceeds the number of registers."
  },
  {
   "property": "C94",
   "status": "partial",
   "theorems": [
    "Verif.Props.C94_constraints_refuted",
    "Verif.Props.C94_tilde_refuted",
    "Verif.Props.C94_every_constraint_refuted",
    "Verif.Props.C94_tilde_partial",
    "Verif.Props.C94_tilde_general_refuted",
    "Verif.Props.C94_first_constraint_partial",
    "Verif.Props.C94_first_constraints_refuted"
   ],
   "note": "False: every second constraint is the zero polynomial (C94_constraints_refuted); with sympy dividing polynomials without a common variable to 0, so is every first one, on every APR object (C94_every_constraint_refuted). The tilde expansion is characterised exactly (C94_tilde_partial) and is never the required one (C94_tilde_general_refuted)."
  },
  {
   "property": "C95",
   "status": "partial",
   "theorems": [
    "Verif.Props.C95_commit_partial",
    "Verif.Props.C95_commit_refuted",
    "Verif.Props.C95_errors_refuted",
    "Verif.Props.C95_size_refuted"
   ],
   "note": "Proved for an int rate and one round. False for every rate below 1 and from two rounds on (C95_commit_refuted). C95_size_refuted: two rounds or more as soon as |S|*rate is at least 32, with the double off by at most 1/4 from log2(|S|*rate)/2."
  },
  {
   "property": "C96",
   "status": "partial",
   "theorems": [
    "Verif.Props.C96_rounds_refuted",
    "Verif.Props.C96_completeness_partial",
    "Verif.Props.C96_no_round_refuted",
    "Verif.Props.C96_completeness_refuted"
   ],
   "note": "Proved with one round and an int rate for small polynomials that are not 0 at the challenge, when the draws select an element; false in all other cases."
  },
  {
   "property": "C97",
   "status": "partial",
   "theorems": [
    "Verif.Props.C97_soundness_refuted",
    "Verif.Props.C97_verdict_refuted",
    "Verif.Props.C97_no_round_refuted"
   ],
   "note": "False: the coefficients in the proof are ignored (C97_soundness_refuted), and with no round everything is accepted."
  },
  {
   "property": "C98",
   "status": "partial",
   "theorems": [
    "Verif.Props.C98_hex_to_bin",
    "Verif.Props.C98_select_random_partial",
    "Verif.Props.C98_select_random_refuted"
   ],
   "note": "Digits proved; select_random proved for extension fields, raises TypeError for prime fields."
  },
  {
   "property": "C99",
   "status": "partial",
   "theorems": [
    "Verif.Props.C99_subspace_partial",
    "Verif.Props.C99_subspace_refuted"
   ],
   "note": "Proved for shifts in the span of the basis; false for every other shift (C99_subspace_refuted), which is dropped."
  },
  {
   "property": "C100",
   "status": "proved",
   "theorems": [
    "Verif.Props.C100_folding"
   ],
   "note": ""
  },
  {
   "property": "C101",
   "status": "partial",
   "theorems": [
    "Verif.Props.C101_proof_refuted",
    "Verif.Props.C101_code_partial"
   ],
   "note": "False for every APR: AttributeError (C101_proof_refuted). The code the constructor sets up has the stated space and rate (C101_code_partial)."
  },
  {
   "property": "C102",
   "status": "partial",
   "theorems": [
    "Verif.Props.C102_constraint_refuted",
    "Verif.Props.C102_constraint_partial",
    "Verif.Props.C102_every_apr_refuted"
   ],
   "note": "False for every APR (C102_constraint_refuted): the loop reads an undefined name. If a process defines that name, the sum is right (C102_constraint_partial)."
  },
  {
   "property": "C103",
   "status": "partial",
   "theorems": [
    "Verif.Props.C103_operators_partial",
    "Verif.Props.C103_expressions_partial",
    "Verif.Props.C103_equality_partial",
    "Verif.Props.C103_right_operand_partial",
    "Verif.Props.C103_extension_polynomials_refuted",
    "Verif.Props.C103_prime_field_elements_refuted",
    "Verif.Props.C103_left_operand_refuted"
   ],
   "note": "Proved for the classes that mix (Tower in Spec/Typecheck) and for a polynomial over F_{p^m} with a polynomial over Z/p on its right; false (TypeError) for polynomials over F_{p^m} with elements of F_{p^m} or Z/p, and for a polynomial over Z/p with one over F_{p^m} on its right."
  },
  {
   "property": "C104",
   "status": "partial",
   "theorems": [
    "Verif.Props.C104_over_prime_field_partial",
    "Verif.Props.C104_over_extension_field_partial",
    "Verif.Props.C104_composition_refuted"
   ],
   "note": "Proved for all pairs that mix; composition of polynomials over F_{p^m} raises TypeError (C104_composition_refuted)."
  },
  {
   "property": "C105",
   "status": "partial",
   "theorems": [
    "Verif.Props.C105_over_prime_field_partial",
    "Verif.Props.C105_over_extension_field_partial",
    "Verif.Props.C105_polynomial_arguments_refuted",
    "Verif.Props.C105_arity"
   ],
   "note": "Proved for all lists of values that mix; polynomials over F_{p^m} as arguments raise TypeError (C105_polynomial_arguments_refuted)."
  },
  {
   "property": "C106",
   "status": "partial",
   "theorems": [
    "Verif.Props.C106_field_division_partial",
    "Verif.Props.C106_polynomial_division_partial",
    "Verif.Props.C106_zero_divisor",
    "Verif.Props.C106_division_by_int_refuted",
    "Verif.Props.C106_extension_polynomials_refuted"
   ],
   "note": "Proved for divisors that are field elements and for polynomials over Z/p; a field element divided by an int raises AttributeError, a polynomial over F_{p^m} divided by an element TypeError. Division by a zero of either field or polynomial class never returns (C106_zero_divisor). Division of multivariate polynomials is C108."
  },
  {
   "property": "C107",
   "status": "partial",
   "theorems": [
    "Verif.Props.C107_own_text_refuted",
    "Verif.Props.C107_index_zero_refuted",
    "Verif.Props.C107_repeated_refuted",
    "Verif.Props.C107_reads_partial",
    "Verif.Props.C107_constants",
    "Verif.Props.C107_signs_refuted",
    "Verif.Props.C107_end_refuted",
    "Verif.Props.C107_leading_minus_refuted",
    "Verif.Props.C107_two_digit_index_refuted",
    "Verif.Props.C107_terminates",
    "Verif.Props.C107_large_index_refuted"
   ],
   "note": "Characterised exactly for polynomials in at most nine variables (C107_reads_partial) and proved for constants; false for texts that end in a constant or a power (IndexError), that begin with a minus (ValueError), that contain a minus elsewhere (sign lost), and for every text with a variable number ten or more (C107_large_index_refuted). The library cannot read its own texts except constants (C107_own_text_refuted), and an index 0 is read as the last variable (C107_index_zero_refuted). Of repeated monomials only the last coefficient counts (C107_repeated_refuted, the exact result for any list of terms)."
  },
  {
   "property": "C108",
   "status": "partial",
   "theorems": [
    "Verif.Props.C108_exact_quotient_partial",
    "Verif.Props.C108_modular_refuted",
    "Verif.Props.C108_power_refuted",
    "Verif.Props.C108_remainder"
   ],
   "note": "Proved for divisions that come out even over the integers with a quotient that C107 reads; false otherwise: sympy divides over the integers, not modulo p, and the text of its quotient may be misread. Sympy is an arbitrary function on strings with the stated answer."
  },
  {
   "property": "C109",
   "status": "partial",
   "theorems": [
    "Verif.Props.C109_constants_partial",
    "Verif.Props.C109_refuted",
    "Verif.Props.C109_constant_receiver_refuted"
   ],
   "note": "Proved for zero and for constants from the prime field when the receiver is not constant; every other polynomial over an extension field raises ValueError, and a constant receiver gives a power tuple of the wrong length."
  },
  {
   "property": "C110",
   "status": "proved",
   "theorems": [
    "Verif.Props.C110_call",
    "Verif.Props.C110_call_multi",
    "Verif.Props.C110_arguments"
   ],
   "note": ""
  },
  {
   "property": "C111",
   "status": "partial",
   "theorems": [
    "Verif.Props.C111_refuted",
    "Verif.Props.C111_example_refuted"
   ],
   "note": "False for every dividend and divisor that are not constant (C111_refuted): the texts given to sympy have no common variable, so the quotient is 0. Sympy is an arbitrary function on strings that answers 0 in that case (Spec/MvString.QuotientZero)."
  },
  {
   "property": "C112",
   "status": "partial",
   "theorems": [
    "Verif.Props.C112_read_partial",
    "Verif.Props.C112_to_bytes_refuted",
    "Verif.Props.C112_merkle_refuted",
    "Verif.Props.C112_unreduced_refuted"
   ],
   "note": "Reading back is proved for the concatenated 32-byte encodings, which no method of the code writes: to_bytes() of every non-zero polynomial or element raises TypeError and of zero returns None; Fq(bytes) does not reduce; Merkle trees of extension field elements raise TypeError."
  },
  {
   "property": "C113",
   "status": "partial",
   "theorems": [
    "Verif.Props.C113_nat_partial",
    "Verif.Props.C113_verify_refuted",
    "Verif.Props.C113_open_refuted",
    "Verif.Props.C113_index_error_partial"
   ],
   "note": "False: verify_branch treats every int as an alias of some position (C113_verify_refuted), mk_branch opens other leaves at -1 and at len(L) (C113_open_refuted); where it raises IndexError is characterised exactly."
  },
  {
   "property": "C114",
   "status": "partial",
   "theorems": [
    "Verif.Props.C114_search_partial",
    "Verif.Props.C114_diverges_refuted",
    "Verif.Props.C114_tiny_refuted",
    "Verif.Props.C114_composite_refuted",
    "Verif.Props.C114_generator_partial"
   ],
   "note": "False for fewer than two bits (never ends), and some draws give the modulus 9 or a modulus with composite factors. Proved: what the search returns and that squaring permutes the squares when both values are prime. The error probability of the test is C80."
  },
  {
   "property": "C115",
   "status": "partial",
   "theorems": [
    "Verif.Props.C115_first_partial",
    "Verif.Props.C115_history_refuted",
    "Verif.Props.C115_positional_refuted",
    "Verif.Props.C115_degree_refuted",
    "Verif.Props.C115_malformed",
    "Verif.Props.C115_degree_keyword_refuted"
   ],
   "note": "False after an earlier call with another modulus for the same p and m (the cache key drops keyword values), for a modulus or degree given the other way, and for moduli of another degree. Proved: the first use after any history."
  },
  {
   "property": "C116",
   "status": "partial",
   "theorems": [
    "Verif.Props.C116_digits_partial",
    "Verif.Props.C116_alias_refuted",
    "Verif.Props.C116_struct_refuted",
    "Verif.Props.C116_regression_refuted",
    "Verif.Props.C116_lost_bit_refuted"
   ],
   "note": "The file falsifies the property. C116_struct_refuted: struct is not imported, so every file that begins with a number raises NameError. C116_alias_refuted: with the import added the result for n numbers is 4n empty lists, whatever the numbers, because one list object is stored each time and then cleared. C116_regression_refuted: Logistic_Regression raises for every file, with or without the import. C116_digits_partial: what the digit loops read before the list is cleared, exactly, for every pattern below 2^63: bits 0..50 and 52..61. C116_lost_bit_refuted: bit 51 is never read, so 1.0 and 1.5 (and every two patterns that differ in this bit only) give the same digits."
  },
  {
   "property": "C117",
   "status": "partial",
   "theorems": [
    "Verif.Props.C117_operators_partial",
    "Verif.Props.C117_reflected_partial",
    "Verif.Props.C117_division_partial",
    "Verif.Props.C117_moduli_refuted",
    "Verif.Props.C117_rational_operand_refuted",
    "Verif.Props.C117_bytes_refuted",
    "Verif.Props.C117_comparison_refuted",
    "Verif.Props.C117_divisor_refuted"
   ],
   "note": "Proved for ints, byte strings and elements with the same modulus, on either side. False: elements of different moduli are combined silently with the left modulus, and == is then not symmetric (C117_moduli_refuted); a rational on the right of an integer modulo p raises, on the left it does not (C117_rational_operand_refuted); byte strings of integers of at least p (C117_bytes_refuted); == raises on other objects (C117_comparison_refuted); division by an int raises AttributeError (C117_divisor_refuted)."
  },
  {
   "property": "C118",
   "status": "partial",
   "theorems": [
    "Verif.Props.C118_modp",
    "Verif.Props.C118_polynomials",
    "Verif.Props.C118_extension_fields",
    "Verif.Props.C118_rationals_refuted",
    "Verif.Props.C118_multivariate_refuted"
   ],
   "note": "Proved for integers modulo p, polynomials over Z/p, elements of extension fields and polynomials over them. False for rationals, with equal elements printed differently and texts that cannot be read back (C118_rationals_refuted), and for multivariate polynomials, whose text depends on the order of insertion (C118_multivariate_refuted)."
  },
  {
   "property": "C119",
   "status": "proved",
   "theorems": [
    "Verif.Props.C119_divmod_modp",
    "Verif.Props.C119_modp",
    "Verif.Props.C119_divmod_extension",
    "Verif.Props.C119_extension"
   ],
   "note": "For any representatives, including zero and, for divmod, any nonzero divisor."
  },
  {
   "property": "C120",
   "status": "partial",
   "theorems": [
    "Verif.Props.C120_agreement_refuted",
    "Verif.Props.C120_address_refuted",
    "Verif.Props.C120_commit_partial"
   ],
   "note": "False: commit hashes the text of one float and query a text with the addresses of two objects, so the two texts always differ (C120_agreement_refuted), and the texts of two runs of query differ unless the objects have the same addresses (C120_address_refuted). Proved: the challenge of commit depends on that float only."
  },
  {
   "property": "C121",
   "status": "partial",
   "theorems": [
    "Verif.Props.C121_rejected_partial",
    "Verif.Props.C121_polynomials_refuted",
    "Verif.Props.C121_elements_refuted"
   ],
   "note": "Proved for all non-zero values except two pairs of classes. False: a polynomial over Z/q on the right of one over Z/p has its representatives read modulo p, so that == is not symmetric and a - b is not even consistent with + and == (C121_polynomials_refuted); likewise with an element of an extension field of characteristic p, in both orders (C121_elements_refuted). Integers modulo different numbers are in C117. Zero polynomials are cast to zero."
  },
  {
   "property": "C122",
   "status": "partial",
   "theorems": [
    "Verif.Props.C122_list_refuted",
    "Verif.Props.C122_stale_refuted",
    "Verif.Props.C122_answers_partial"
   ],
   "note": "Each call appends a function to the list (C122_list_refuted), and later calls check the first proof instead of theirs (C122_stale_refuted). With one round over an independent basis this does not change the answers (C122_answers_partial)."
  },
  {
   "property": "C123",
   "status": "partial",
   "theorems": [
    "Verif.Props.C123_transcript_accepted",
    "Verif.Props.C123_sent_graph_partial",
    "Verif.Props.C123_distribution_refuted"
   ],
   "note": "Honest transcripts are accepted (C123_transcript_accepted) and the graph sent has the same distribution in both (C123_sent_graph_partial, counted for each challenge and graph). The witnesses do not: the simulator returns the permutation where the protocol returns its inverse (C123_distribution_refuted)."
  },
  {
   "property": "C124",
   "status": "partial",
   "theorems": [
    "Verif.Props.C124_nodes",
    "Verif.Props.C124_batch_partial",
    "Verif.Props.C124_batch_refuted",
    "Verif.Props.C124_bodies"
   ],
   "note": "C124_nodes and C124_bodies are proved in full. False for batches: an invalid address raises ValueError after the earlier ones have been registered (C124_batch_refuted); C124_batch_partial says exactly what a batch does."
  },
  {
   "property": "C125",
   "status": "partial",
   "theorems": [
    "Verif.Props.C125_spread",
    "Verif.Props.C125_lengths_partial",
    "Verif.Props.C125_ties_refuted",
    "Verif.Props.C125_chains_partial",
    "Verif.Props.C125_one_miner_partial"
   ],
   "note": "Proved: monotone lengths, no new chains, spread at one hop per round (C125_spread), convergence of the lengths to the longest (C125_lengths_partial). Of the chains themselves: proved if all chains of the greatest length are the same (C125_chains_partial), which holds after any history in which one node mines (C125_one_miner_partial); false in general, since ties are never resolved (C125_ties_refuted)."
  },
  {
   "property": "C126",
   "status": "partial",
   "theorems": [
    "Verif.Props.C126_degree",
    "Verif.Props.C126_order_partial",
    "Verif.Props.C126_identity_refuted",
    "Verif.Props.C126_text_refuted"
   ],
   "note": "True of different degrees (C126_degree) and over Z/2 if equal coefficients are the same object (C126_order_partial). False otherwise: the loop compares objects by identity (C126_identity_refuted) and numbers by the first character of their text (C126_text_refuted)."
  },
  {
   "property": "C127",
   "status": "partial",
   "theorems": [
    "Verif.Props.C127_completeness_partial",
    "Verif.Props.C127_bounds",
    "Verif.Props.C127_factor_refuted",
    "Verif.Props.C127_order_refuted"
   ],
   "note": "The class is commented out in the pinned commit and modelled as if it were not. True exactly for the bounds r*4^j with r <= 16 (C127_completeness_partial, C127_bounds). False for other bounds, because the code rounds down when it divides the bound by four; for more than 40 spot checks with two layers (C127_factor_refuted); and on domains of size 3*2^k the verifier does not end (C127_order_refuted)."
  },
  {
   "property": "C128",
   "status": "partial",
   "theorems": [
    "Verif.Props.C128_round",
    "Verif.Props.C128_soundness_partial",
    "Verif.Props.C128_positions",
    "Verif.Props.C128_converse",
    "Verif.Props.C128_order_refuted",
    "Verif.Props.C128_distance_refuted",
    "Verif.Props.C128_soundness_refuted",
    "Verif.Props.C128_far",
    "Verif.Props.C128_layer",
    "Verif.Props.C128_acceptance_partial",
    "Verif.Props.C128_hashed_finite"
   ],
   "note": "False: every vector has an accepted proof, because the length of the last component is not checked (C128_soundness_refuted, C128_far). C128_layer says exactly what a layer checks; C128_acceptance_partial what acceptance means for proofs of the right shape. C128_round: for all challenges but three, folding brings a vector no nearer to low degree; C128_soundness_partial puts the layers together: an accepted proof of the right shape means a hash collision, a committed vector near low degree, one of three bad challenges, or draws that all miss a large set of wrong positions (counted in C128_positions). The last of these can be forced: the positions are drawn from the root of the folded vector alone and the challenge from that of the vector that is folded alone, so a prover chooses the folded vector first (C128_order_refuted, for proofs of exactly the right shape; C128_distance_refuted gives vectors far from low degree). C128_converse: the characterisation of accepted proofs of the right shape is exact."
  },
  {
   "property": "C129",
   "status": "partial",
   "theorems": [
    "Verif.Props.C129_lagrange_interp_refuted",
    "Verif.Props.C129_multi_interp_4_refuted",
    "Verif.Props.C129_specialised_partial"
   ],
   "note": "False for lagrange_interp and multi_interp_4: batch inversion turns a zero denominator into 1, so they return a polynomial that is 0 at every repeated point (C129_lagrange_interp_refuted, C129_multi_interp_4_refuted: the exact values at all points). True for the two specialised functions (C129_specialised_partial)."
  },
  {
   "property": "C130",
   "status": "partial",
   "theorems": [
    "Verif.Props.C130_fri",
    "Verif.Props.C130_fri_size",
    "Verif.Props.C130_fri_partial",
    "Verif.Props.C130_branches",
    "Verif.Props.C130_stark_partial",
    "Verif.Props.C130_fri_refuted"
   ],
   "note": "Every object in a returned proof is one the format can carry (C130_fri, C130_branches), and the number of entries is given by the parameters (C130_fri_size). The branches of an honest STARK proof always fit, and its proof of proximity fits if the extension factor is at most 1024 times the degree (C130_stark_partial, C130_fri_partial). False in general: with 2^18 points or more and a small bound, compress_fri raises OverflowError on an honest proof (C130_fri_refuted). Together with C33_compress_fri_iff, which says exactly when it raises."
  },
  {
   "property": "C131",
   "status": "proved",
   "theorems": [
    "Verif.Props.C131_euclid",
    "Verif.Props.C131_pow",
    "Verif.Props.C131_pow_extension",
    "Verif.Props.C131_power_of_2",
    "Verif.Props.C131_fft",
    "Verif.Props.C131_prover"
   ],
   "note": "Fuel counts rounds or nested calls, so a bound says that every larger amount of fuel gives the same result. Exact for is_a_power_of_2, decompose and the Fourier transform (both directions); upper bounds for Euclid, powers and the prover. Negative exponents in an extension field (C06_pow_extension_negative) and is_a_power_of_2(0) have no bound at all and are excluded from the statement."
  },
  {
   "property": "C132",
   "status": "proved",
   "theorems": [
    "Verif.Props.C132_spot_checks",
    "Verif.Props.C132_power_of_two",
    "Verif.Props.C132_excluded"
   ],
   "note": "Probability = fraction of the pairs (root, function on 32-byte strings). Exact split of the words when the size is a power of two (C132_power_of_two); C132_excluded for an excluded factor. The theorem is about the sampling alone: that the root of a dishonest prover is as good as random is the usual assumption and not part of it."
  },
  {
   "property": "C133",
   "status": "partial",
   "theorems": [
    "Verif.Props.C133_few_challenges_partial",
    "Verif.Props.C133_probability_partial",
    "Verif.Props.C133_reused_labels_refuted"
   ],
   "note": "Proved for widths 1 to 3, as a count of challenges and as a probability. From width 4 on the property is false for every hash function: get_pseudorandom_ks gives the columns the labels of k1..k4 again, and C133_reused_labels_refuted exhibits, for every polynomial h, columns among which h is one and whose combination is zero whatever the hashes are. From width 10 on there is no combination (C52_combination_refuted)."
  },
  {
   "property": "C134",
   "status": "partial",
   "theorems": [
    "Verif.Props.C134_serving_partial",
    "Verif.Props.C134_refused",
    "Verif.Props.C134_register",
    "Verif.Props.C134_register_list",
    "Verif.Props.C134_adopted",
    "Verif.Props.C134_adopted_iff",
    "Verif.Props.C134_junk_refuted",
    "Verif.Props.C134_rewards_refuted",
    "Verif.Props.C134_letters_refuted",
    "Verif.Props.C134_typed"
   ],
   "note": "Proved when the chains in answers end in a block (a dictionary with a proof and a numeric index): C134_serving_partial. How other bodies are refused, registering and the exact criterion of adoption are proved without that (C134_refused, C134_register, C134_register_list, C134_adopted, C134_adopted_iff), and the JSON model does what the typed one does on well-formed traffic (C134_typed). False in general: a peer makes any one-element list (or one-letter text) the chain, after which mining and transactions raise for ever, the latter after recording (C134_junk_refuted); failed requests to mine leave their rewards behind, paid by a later block (C134_rewards_refuted); a text as the list of nodes registers its letters (C134_letters_refuted)."
  },
  {
   "property": "C135",
   "status": "proved",
   "theorems": [
    "Verif.Props.C135_fri",
    "Verif.Props.C135_stark",
    "Verif.Props.C135_witness",
    "Verif.Props.C135_fri_generated",
    "Verif.Props.C135_stark_generated"
   ],
   "note": "The calls are counted by what the outcome depends on: there is a list of so many inputs such that any hash function that agrees on them gives the same outcome (Spec/QueryCount.lean). The model leaves out the call get_pseudorandom_ks(m_root, 4) of verify_proof, whose result is not used: four calls more. The bound for generated proofs is for at most 40 spot checks per layer (the default, and what STARK uses) and values extended at most 1024 times."
  },
  {
   "property": "C136",
   "status": "partial",
   "theorems": [
    "Verif.Props.C136_left_refuted",
    "Verif.Props.C136_unchanged_partial",
    "Verif.Props.C136_diagonal_partial",
    "Verif.Props.C136_again_refuted",
    "Verif.Props.C136_twice_refuted",
    "Verif.Props.C136_moore_refuted"
   ],
   "note": "False: the list is overwritten by a triangular matrix and a last column of products (C136_left_refuted, all sizes), a second call in general returns another vector (C136_again_refuted: exactly when; C136_twice_refuted: a system modulo 7), and the check of the Moore kernel, made on the overwritten list, fails unless the part off the diagonal sends the solution to zero (C136_moore_refuted, all dimensions). True exactly for triangular systems whose right-hand sides are the products of diagonal and solution (C136_unchanged_partial), in particular diagonal ones (C136_diagonal_partial). Constant entries only."
  },
  {
   "property": "C137",
   "status": "partial",
   "theorems": [
    "Verif.Props.C137_multi_inv",
    "Verif.Props.C137_multi_interp_4",
    "Verif.Props.C137_interp_4_2",
    "Verif.Props.C137_polynomials",
    "Verif.Props.C137_lagrange",
    "Verif.Props.C137_lagrange_bounds",
    "Verif.Props.C137_lagrange_refuted",
    "Verif.Props.C137_fft",
    "Verif.Props.C137_mul_polys"
   ],
   "note": "False for lagrange_interp: its divisions by x - xs[i] invert the leading coefficient 1 once per non-zero coefficient of each quotient, so n points cost between n + 1 and n² + 1 inversions (C137_lagrange: exactly how many; C137_lagrange_refuted). True, with exact counts, for multi_inv, multi_interp_4, lagrange_interp_4, lagrange_interp_2, fft_1d and mul_polys. The counts are of the * and inverse() that the code evaluates on coefficients and values (Model/OpCount.lean); additions, and work inside one field operation, are not counted."
  },
  {
   "property": "C138",
   "status": "proved",
   "theorems": [
    "Verif.Props.C138_merkelize",
    "Verif.Props.C138_merkelize_exact",
    "Verif.Props.C138_fri",
    "Verif.Props.C138_fri_small",
    "Verif.Props.C138_stark"
   ],
   "note": "Calls are counted as in C135, by what the outcome depends on; repeated calls with the same input count once there, and the proofs count every call. C138_merkelize_exact: the n - 1 of a tree cannot be lowered when the hashed pairs are different. The bound for the proximity proof assumes that the degree bound is not above the number of points; the one for the STARK is for valid executions (for others the polynomials of the quotients can be longer, C48)."
  },
  {
   "property": "C139",
   "status": "partial",
   "theorems": [
    "Verif.Props.C139_fri",
    "Verif.Props.C139_fri_objects",
    "Verif.Props.C139_branches",
    "Verif.Props.C139_exceptions",
    "Verif.Props.C139_unique_refuted",
    "Verif.Props.C139_expansion_refuted",
    "Verif.Props.C139_wire_partial",
    "Verif.Props.C139_wire_length",
    "Verif.Props.C139_wire_refuted"
   ],
   "note": "Three clauses are false of the code and refuted: different data give the same proof (C139_unique_refuted: every proof with a repetition is accepted in full and in compressed form), the size of the result is not bounded by a multiple of the data (C139_expansion_refuted, for every factor), and the counted bytes are ambiguous once there are 11566 entries (C139_wire_refuted: a separator reads as two references). C139_wire_partial: with references below 11051 they determine the list. The other clauses hold: C139_exceptions, C139_fri, C139_fri_objects, C139_branches (whose last separator may be missing)."
  },
  {
   "property": "C140",
   "status": "partial",
   "theorems": [
    "Verif.Props.C140_fields_partial",
    "Verif.Props.C140_nine_refuted",
    "Verif.Props.C140_wrong_degree_refuted",
    "Verif.Props.C140_size_refuted",
    "Verif.Props.C140_size_64_refuted"
   ],
   "note": "x^9+x+1 is irreducible but not primitive, X**73 is 1 (C140_nine_refuted); the commented-out test that asserts it passes because it asks with the degree 2, for which is_primitive answers True for every irreducible polynomial (C140_wrong_degree_refuted); and is_primitive builds the power before it reduces it, with more than 2*10^12 coefficients for m = 64 (C140_size_refuted, C140_size_64_refuted). The other four polynomials are as described (C140_fields_partial)."
  },
  {
   "property": "C141",
   "status": "partial",
   "theorems": [
    "Verif.Props.C141_colors",
    "Verif.Props.C141_zero_knowledge_partial",
    "Verif.Props.C141_non_edge",
    "Verif.Props.C141_queries_refuted",
    "Verif.Props.C141_injective_refuted"
   ],
   "note": "The two opened colours are a uniform pair of different colours (C141_colors) and non-edges are refused (C141_non_edge). Everything received has the same distribution for any two proper colourings if the commitments hide perfectly (C141_zero_knowledge_partial); those of the code do not, being injective on its secrets (C141_injective_refuted), so there the secrecy rests on the hardness of extracting square roots, which is not expressible here. The prover answers any number of queries under one commitment, which together give away a colouring (C141_queries_refuted)."
  },
  {
   "property": "C142",
   "status": "partial",
   "theorems": [
    "Verif.Props.C142_fri_size",
    "Verif.Props.C142_branches_size",
    "Verif.Props.C142_never_longer_partial",
    "Verif.Props.C142_never_longer_refuted",
    "Verif.Props.C142_generated_fri",
    "Verif.Props.C142_generated_fri_short",
    "Verif.Props.C142_stark"
   ],
   "note": "The exact size holds for every proof (C142_fri_size, C142_branches_size). \"Never longer\" is false for byte strings of one byte or none, whose back references are longer than they are (C142_never_longer_refuted), and true for all others (C142_never_longer_partial). The bound for proofs of proximity holds for every bound d (C142_generated_fri, in terms of the number of entries, whose last component is the whole remaining domain) and is quadratic in k when 2^k ≤ 1024 (d + 1) (C142_generated_fri_short). The bound for the whole proof is for executions whose outputs are not zero, as in C74; its proximity part needs 2^b ≤ 1024 deg (C142_stark)."
  },
  {
   "property": "C143",
   "status": "proved",
   "theorems": [
    "Verif.Props.C143_opens_last",
    "Verif.Props.C143_accepted",
    "Verif.Props.C143_stale",
    "Verif.Props.C143_no_edge_chosen",
    "Verif.Props.C143_failed_commit"
   ],
   "note": ""
  },
  {
   "property": "C144",
   "status": "partial",
   "theorems": [
    "Verif.Props.C144_all_open",
    "Verif.Props.C144_hiding_refuted",
    "Verif.Props.C144_exact_partial",
    "Verif.Props.C144_single_use_partial"
   ],
   "note": "All commitments open (C144_all_open). They do not hide: two commitments of one object give away the exclusive or of their integers to anyone (C144_hiding_refuted), so opening one opens all. If the secrets come in pairs that only the predicate tells apart, this is exactly what they give away (C144_exact_partial), and an object used once hides (C144_single_use_partial); for the secrets of the code, on which squaring is injective, hiding rests on the hardness of square roots, see C141_injective_refuted."
  },
  {
   "property": "C145",
   "status": "partial",
   "theorems": [
    "Verif.Props.C145_secret_refuted",
    "Verif.Props.C145_impostor_refuted",
    "Verif.Props.C145_isolated_partial"
   ],
   "note": "the full property is false: the secret can be read off the two public graphs (C145_secret_refuted), and the list read off makes an accepted prover (C145_impostor_refuted); what stays secret is proved exactly (C145_isolated_partial)"
  },
  {
   "property": "C146",
   "status": "proved",
   "theorems": [
    "Verif.Props.C146_caught",
    "Verif.Props.C146_half",
    "Verif.Props.C146_commits"
   ],
   "note": "C146_caught bounds the probability for any degrees, C146_half for those the proximity test is about, with no execution ending in the claimed output as the hypothesis. C146_commits: the root of the tree over the values is such a commitment unless a hash collision can be read off. The order matters: a prover that chooses the polynomials after the second root is not caught (C75_forgery), since the code does not derive the second root from the first."
  },
  {
   "property": "C147",
   "status": "proved",
   "theorems": [
    "Verif.Props.C147_runs",
    "Verif.Props.C147_values",
    "Verif.Props.C147_comparison"
   ],
   "note": "C147_runs: any two runs agree; C147_values: what a run yields, in terms of the denoted polynomial; C147_comparison: == and rebuilding from iteration. The text of a polynomial does show the order (C118_multivariate_refuted)."
  },
  {
   "property": "C148",
   "status": "proved",
   "theorems": [
    "Verif.Props.C148_words",
    "Verif.Props.C148_operators",
    "Verif.Props.C148_division"
   ],
   "note": "C148_words: elements are words; C148_operators holds for every modulus, irreducible or not; C148_division for irreducible ones."
  },
  {
   "property": "C149",
   "status": "proved",
   "theorems": [
    "Verif.Props.C149_binding",
    "Verif.Props.C149_opening"
   ],
   "note": "C149_binding: any openings shown after at most q calls; C149_opening: honest trees. Leaves of different lengths are not compared: verify_branch does not check lengths (C31_merkle_binding_refuted)."
  },
  {
   "property": "C150",
   "status": "partial",
   "theorems": [
    "Verif.Props.C150_text",
    "Verif.Props.C150_hash",
    "Verif.Props.C150_guess_partial",
    "Verif.Props.C150_guess_refuted"
   ],
   "note": "C150_text, C150_hash: in full, for texts of numbers that are injective, begin like numbers and contain no comma or bracket (ints proved to be so: intText_ok). C150_guess_refuted: the string of valid_proof does not determine the two proofs; C150_guess_partial: what it determines."
  },
  {
   "property": "C151",
   "status": "partial",
   "theorems": [
    "Verif.Props.C151_commits_partial",
    "Verif.Props.C151_suffix_partial",
    "Verif.Props.C151_suffix_refuted",
    "Verif.Props.C151_prover_partial"
   ],
   "note": "C151_suffix_refuted: the end of a valid chain is a valid chain with the same last hash. C151_commits_partial and C151_prover_partial: with first blocks that carry no hash; C151_suffix_partial: with any first blocks."
  },
  {
   "property": "C152",
   "status": "proved",
   "theorems": [
    "Verif.Props.C152_attempts",
    "Verif.Props.C152_distribution",
    "Verif.Props.C152_forgery"
   ],
   "note": "C152_attempts and C152_distribution: exact probabilities; C152_forgery: the bound for every adaptive program."
  },
  {
   "property": "C153",
   "status": "partial",
   "theorems": [
    "Verif.Props.C153_fri_partial",
    "Verif.Props.C153_fri_shape",
    "Verif.Props.C153_generated_shape",
    "Verif.Props.C153_stark_partial",
    "Verif.Props.C153_stark_shape",
    "Verif.Props.C153_refuted",
    "Verif.Props.C153_stark_refuted"
   ],
   "note": "C153_refuted and C153_stark_refuted: proofs of the wrong shape raise IndexError, ZeroDivisionError, OverflowError. C153_fri_partial, C153_stark_partial: for every proof, these and AssertionError are all that can happen besides True. C153_fri_shape, C153_stark_shape: only AssertionError for proofs of the right shape, which by C153_generated_shape the provers make."
  },
  {
   "property": "C154",
   "status": "partial",
   "theorems": [
    "Verif.Props.C154_square_roots",
    "Verif.Props.C154_secret_partial",
    "Verif.Props.C154_root_refuted",
    "Verif.Props.C154_coloring_refuted",
    "Verif.Props.C154_generator_refuted"
   ],
   "note": "C154_square_roots: exactly half, for every inverter. C154_secret_partial: for secrets whose root is drawn uniformly. C154_root_refuted, C154_coloring_refuted, C154_generator_refuted: the draws of the code have a fixed number of bits, and a modulus of four times as many bits opens the commitments to everybody; such moduli occur."
  },
  {
   "property": "C155",
   "status": "proved",
   "theorems": [
    "Verif.Props.C155_prime",
    "Verif.Props.C155_modulus",
    "Verif.Props.C155_ends",
    "Verif.Props.C155_density"
   ],
   "note": "C155_prime, C155_modulus: the answer is right up to the error of the primality test; C155_ends, C155_density: the search ends."
  },
  {
   "property": "C156",
   "status": "partial",
   "theorems": [
    "Verif.Props.C156_last_refuted",
    "Verif.Props.C156_work_partial",
    "Verif.Props.C156_attack_partial"
   ],
   "note": "C156_last_refuted: the last block can be replaced without work. C156_work_partial: no work is taken over for later blocks; C156_attack_partial: the bound, for the blocks after the changed one, given everything hashed before."
  },
  {
   "property": "C157",
   "status": "partial",
   "theorems": [
    "Verif.Props.C157_lost_refuted",
    "Verif.Props.C157_twice_refuted",
    "Verif.Props.C157_adoption_partial",
    "Verif.Props.C157_kept_partial",
    "Verif.Props.C157_one_miner_partial"
   ],
   "note": "C157_lost_refuted, C157_twice_refuted: with two honest nodes a mined transaction disappears from the whole network, or ends up in two blocks of a valid chain. C157_adoption_partial: exactly what taking over a chain does. C157_kept_partial: nothing is lost while new chains hold the transactions of the old ones. C157_one_miner_partial: the property in full if one node mines."
  },
  {
   "property": "C158",
   "status": "partial",
   "theorems": [
    "Verif.Props.C158_coins_partial",
    "Verif.Props.C158_balance_refuted",
    "Verif.Props.C158_consensus_refuted",
    "Verif.Props.C158_overlap_refuted"
   ],
   "note": "C158_balance_refuted: after any history, one submission and one block give any account any balance. C158_consensus_refuted: any payments can be in a chain that is taken over. C158_overlap_refuted: two coins in one block, none in the next. C158_coins_partial: one coin per block without consensus and without submissions from 0."
  },
  {
   "property": "C159",
   "status": "partial",
   "theorems": [
    "Verif.Props.C159_exclusive_partial",
    "Verif.Props.C159_adopted_partial",
    "Verif.Props.C159_shorter_refuted",
    "Verif.Props.C159_invalid_refuted"
   ],
   "note": "C159_shorter_refuted: n + 1 blocks are replaced by 2, with a truthful peer, for every n. C159_invalid_refuted: one /mine and one /nodes/resolve request make an invalid chain. C159_exclusive_partial: valid and never shorter without overlap. C159_adopted_partial: for every schedule, a chain taken over is valid. new_transaction and new_block are atomic here (C84, C85 are about single accesses), and no node is registered while peers are asked."
  },
  {
   "property": "C160",
   "status": "partial",
   "theorems": [
    "Verif.Props.C160_best",
    "Verif.Props.C160_order_partial",
    "Verif.Props.C160_length_partial",
    "Verif.Props.C160_ties_refuted",
    "Verif.Props.C160_raises_refuted",
    "Verif.Props.C160_unreachable"
   ],
   "note": "C160_best: what a call ends with, for all answers. C160_order_partial: the same value in every order, and the same chain if the best offers are one chain; C160_length_partial: chains of the same length if the peers are truthful; C160_unreachable: an unreachable peer makes the call raise in every order. C160_ties_refuted: of two longest chains that of the peer asked first is taken. C160_raises_refuted: a peer that sends no block makes the call raise or not, depending on the order."
  },
  {
   "property": "C161",
   "status": "partial",
   "theorems": [
    "Verif.Props.C161_read",
    "Verif.Props.C161_values_partial",
    "Verif.Props.C161_enforced_refuted",
    "Verif.Props.C161_order_refuted"
   ],
   "note": "C161_read: nothing else is read, for all arguments. C161_values_partial: these values are enforced, for every accepted proof. C161_enforced_refuted: every constraint that does not hold is accepted at the end of the list. C161_order_refuted: proofs made with values in other places are refused, with every hash function and proximity test."
  },
  {
   "property": "C162",
   "status": "partial",
   "theorems": [
    "Verif.Props.C162_half_partial",
    "Verif.Props.C162_statement_partial",
    "Verif.Props.C162_random_partial",
    "Verif.Props.C162_eighty_partial",
    "Verif.Props.C162_one_position_refuted"
   ],
   "note": "C162_statement_partial: one statement at most when two different positions are sampled. C162_half_partial: inputs and outputs determine each other, for any sample. C162_random_partial, C162_eighty_partial: with a random root no proof is accepted for two statements, up to a probability of 2^-78 for 80 spot checks. C162_one_position_refuted: with one position, any inputs."
  },
  {
   "property": "C163",
   "status": "proved",
   "theorems": [
    "Verif.Props.C163_pieces",
    "Verif.Props.C163_repeats",
    "Verif.Props.C163_cycle"
   ],
   "note": "C163_pieces: an equivalence, so also the exceptions agree. C163_repeats, C163_cycle."
  },
  {
   "property": "C164",
   "status": "partial",
   "theorems": [
    "Verif.Props.C164_lists_partial",
    "Verif.Props.C164_ints",
    "Verif.Props.C164_levels_refuted",
    "Verif.Props.C164_sizes_refuted"
   ],
   "note": "C164_lists_partial: lists of the same length with encodings of the same sizes; C164_ints: lists of ints. C164_levels_refuted: for every list of at least eight items there is a shorter one with the same root, whatever the hash function. C164_sizes_refuted: encodings of different sizes."
  },
  {
   "property": "C165",
   "status": "partial",
   "theorems": [
    "Verif.Props.C165_branch_partial",
    "Verif.Props.C165_proof_partial",
    "Verif.Props.C165_appended_refuted",
    "Verif.Props.C165_moved_refuted",
    "Verif.Props.C165_fri_partial",
    "Verif.Props.C165_zeros_refuted"
   ],
   "note": "C165_branch_partial: one opening, C165_proof_partial: all branches of a STARK proof that are read, C165_fri_partial: everything that is read of a proof of proximity of SmoothSubgroupFRI; for strings of the same sizes. C165_appended_refuted, C165_moved_refuted, C165_zeros_refuted: three ways to alter every accepted proof, whatever the hash function."
  },
  {
   "property": "C166",
   "status": "partial",
   "theorems": [
    "Verif.Props.C166_opened",
    "Verif.Props.C166_exact",
    "Verif.Props.C166_apart_partial",
    "Verif.Props.C166_random_partial",
    "Verif.Props.C166_program_refuted",
    "Verif.Props.C166_agreeing_refuted",
    "Verif.Props.C166_trace_partial",
    "Verif.Props.C166_half_partial"
   ],
   "note": "C166_opened, C166_exact: when a proof is accepted for two computations, for all proofs. C166_apart_partial: computations that agree nowhere; C166_random_partial: random second root and hash function, given what the first root commits to; C166_trace_partial: given that it commits to a trace on which the computations differ somewhere, C166_half_partial: a half for each spot check if the extension factor exceeds three times the degree. C166_program_refuted: a false claim accepted with one spot check; C166_agreeing_refuted: two true claims with one proof."
  },
  {
   "property": "C167",
   "status": "proved",
   "theorems": [
    "Verif.Props.C167_distance",
    "Verif.Props.C167_systematic",
    "Verif.Props.C167_decoding",
    "Verif.Props.C167_tight"
   ],
   "note": "C167_systematic, C167_distance, C167_decoding, C167_tight; all sizes the transform admits (C24_other_sizes says what happens for the others)."
  },
  {
   "property": "C168",
   "status": "proved",
   "theorems": [
    "Verif.Props.C168_sum",
    "Verif.Props.C168_product",
    "Verif.Props.C168_wrap",
    "Verif.Props.C168_rotate",
    "Verif.Props.C168_injective"
   ],
   "note": "C168_sum, C168_product, C168_wrap, C168_rotate, C168_injective; all sizes the transform admits."
  },
  {
   "property": "C169",
   "status": "proved",
   "theorems": [
    "Verif.Props.C169_order",
    "Verif.Props.C169_linear",
    "Verif.Props.C169_reproduces",
    "Verif.Props.C169_extra",
    "Verif.Props.C169_repeated"
   ],
   "note": "C169_order, C169_linear, C169_reproduces, C169_extra. C169_repeated: a further point must be different from the others, for a repeated one the last law fails."
  },
  {
   "property": "C170",
   "status": "proved",
   "theorems": [
    "Verif.Props.C170_additive",
    "Verif.Props.C170_shift",
    "Verif.Props.C170_sparse",
    "Verif.Props.C170_step",
    "Verif.Props.C170_fold",
    "Verif.Props.C170_fibres"
   ],
   "note": "C170_additive, C170_shift, C170_sparse, C170_step, C170_fold, C170_fibres. Scalars in an extension field are excluded, the code raises there (C23)."
  },
  {
   "property": "C171",
   "status": "proved",
   "theorems": [
    "Verif.Props.C171_basis",
    "Verif.Props.C171_determines",
    "Verif.Props.C171_split",
    "Verif.Props.C171_divides",
    "Verif.Props.C171_dependent"
   ],
   "note": "C171_basis, C171_determines, C171_split, C171_divides, C171_dependent. Scalars in an extension field are excluded, the code raises there (C23)."
  },
  {
   "property": "C172",
   "status": "proved",
   "theorems": [
    "Verif.Props.C172_sum",
    "Verif.Props.C172_zero",
    "Verif.Props.C172_parity",
    "Verif.Props.C172_dependent",
    "Verif.Props.C172_distance"
   ],
   "note": "C172_sum, C172_zero, C172_parity, C172_dependent, C172_distance. Scalars in an extension field are excluded, the code raises there (C23)."
  },
  {
   "property": "C173",
   "status": "proved",
   "theorems": [
    "Verif.Props.C173_coefficient",
    "Verif.Props.C173_sum",
    "Verif.Props.C173_parity"
   ],
   "note": "C173_sum, C173_coefficient, C173_parity, for every prime characteristic; C173_sum for every field."
  }
 ]
}