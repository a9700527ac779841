{
 "claims": [
  {
   "property": "C01",
   "status": "proved",
   "theorems": [
    "Snob.Props.C01_product_is_composition"
   ],
   "note": "Refinement of the array loop to composition; UB-free."
  },
  {
   "property": "C02",
   "status": "proved",
   "theorems": [
    "Snob.Props.C02_group_laws"
   ],
   "note": ""
  },
  {
   "property": "C03",
   "status": "partial",
   "theorems": [
    "Snob.Props.C03_mul_assign_wrong_order",
    "Snob.Props.C03_mul_assign_partial",
    "Snob.Props.C03_self_mul_assign_invalid"
   ],
   "note": "False of the code. Proved: negation, what *= computes instead, and that a*=a can leave a non-permutation."
  },
  {
   "property": "C04",
   "status": "proved",
   "theorems": [
    "Snob.Props.C04_check_valid_decides",
    "Snob.Props.C04_isPerm_iff",
    "Snob.Props.C04_set_value",
    "Snob.Props.C04_set_value_valid"
   ],
   "note": "The check on every array; what set_value does to an array and when it keeps a permutation."
  },
  {
   "property": "C05",
   "status": "proved",
   "theorems": [
    "Snob.Props.C05_transposition",
    "Snob.Props.C05_contiguous_cycle"
   ],
   "note": ""
  },
  {
   "property": "C06",
   "status": "proved",
   "theorems": [
    "Snob.Props.C06_equality_extensional"
   ],
   "note": ""
  },
  {
   "property": "C07",
   "status": "proved",
   "theorems": [
    "Snob.Props.C07_enumeration_bijective",
    "Snob.Props.C07_round_trips"
   ],
   "note": "Unbounded integers; see C57 for overflow."
  },
  {
   "property": "C08",
   "status": "proved",
   "theorems": [
    "Snob.Props.C08_enumeration_nested"
   ],
   "note": "The code's cosets are S_m*sigma (left composition by S_m); the documentation speaks of sigma*S_m."
  },
  {
   "property": "C09",
   "status": "proved",
   "theorems": [
    "Snob.Props.C09_coset_space"
   ],
   "note": ""
  },
  {
   "property": "C10",
   "status": "proved",
   "theorems": [
    "Snob.Props.C10_partitions_complete"
   ],
   "note": ""
  },
  {
   "property": "C100",
   "status": "proved",
   "theorems": [
    "Snob.Props.C100_sizes",
    "Snob.Props.C100_cclasses",
    "Snob.Props.C100_irreps",
    "Snob.Props.C100_characters",
    "Snob.Props.C100_elements"
   ],
   "note": "Loops with arbitrary valid calls in the body, after any valid history."
  },
  {
   "property": "C101",
   "status": "proved",
   "theorems": [
    "Snob.Props.C101_random",
    "Snob.Props.C101_random_class"
   ],
   "note": "The generator of random numbers is not modelled; random() is a function of the number drawn."
  },
  {
   "property": "C102",
   "status": "proved",
   "theorems": [
    "Snob.Props.C102_functions",
    "Snob.Props.C102_entries",
    "Snob.Props.C102_entries_of_different",
    "Snob.Props.C102_traces",
    "Snob.Props.C102_resolution",
    "Snob.Props.C102_central",
    "Snob.Props.C102_traces_central"
   ],
   "note": "Exact arithmetic."
  },
  {
   "property": "C103",
   "status": "partial",
   "theorems": [
    "Snob.Props.C103_apply_inplace",
    "Snob.Props.C103_cycle_inplace_partial",
    "Snob.Props.C103_cycle_inv_inplace_partial",
    "Snob.Props.C103_there_and_back",
    "Snob.Props.C103_vec_inv_partial",
    "Snob.Props.C103_apply_partial",
    "Snob.Props.C103_apply_columns",
    "Snob.Props.C103_apply_undefined",
    "Snob.Props.C103_apply_all_undefined",
    "Snob.Props.C103_cycle_descending",
    "Snob.Props.C103_apply_wrong"
   ],
   "note": "In-place actions on permutations proved in full. The versions for cycles do nothing for descending cycles (proved). apply() is right for one column per copy only; what it does otherwise is proved exactly."
  },
  {
   "property": "C104",
   "status": "partial",
   "theorems": [
    "Snob.Props.C104_numbers",
    "Snob.Props.C104_permutations",
    "Snob.Props.C104_permutation_printed",
    "Snob.Props.C104_partitions",
    "Snob.Props.C104_tableaux",
    "Snob.Props.C104_cycles",
    "Snob.Props.C104_types",
    "Snob.Props.C104_groups",
    "Snob.Props.C104_products",
    "Snob.Props.C104_product_group",
    "Snob.Props.C104_product_group_witness"
   ],
   "note": "True and proved for all kinds of objects except product groups, which are printed without their first factor (proved)."
  },
  {
   "property": "C105",
   "status": "partial",
   "theorems": [
    "Snob.Props.C105_rounding",
    "Snob.Props.C105_witness",
    "Snob.Props.C105_false",
    "Snob.Props.C105_coeff_partial",
    "Snob.Props.C105_nearest",
    "Snob.Props.C105_error",
    "Snob.Props.C105_exact",
    "Snob.Props.C105_small"
   ],
   "note": "false as stated (negation proved at n=7 with IEEE arithmetic); proved: off by at most one and never too large for n<=10, within 1/5 for n<=9, explicit error bound for all n and all roundings Exact up to n=6 (C105_small)."
  },
  {
   "property": "C106",
   "status": "proved",
   "theorems": [
    "Snob.Props.C106_apply",
    "Snob.Props.C106_ieee",
    "Snob.Props.C106_exact"
   ],
   "note": "all matrices, permutations and roundings"
  },
  {
   "property": "C107",
   "status": "partial",
   "theorems": [
    "Snob.Props.C107_error",
    "Snob.Props.C107_ieee",
    "Snob.Props.C107_witness",
    "Snob.Props.C107_false"
   ],
   "note": "exactness is false (negation proved); error bounds proved for all partitions; the nearest integer is right if d(d+2n)<2^22"
  },
  {
   "property": "C108",
   "status": "partial",
   "theorems": [
    "Snob.Props.C108_witness",
    "Snob.Props.C108_false",
    "Snob.Props.C108_product_witness",
    "Snob.Props.C108_stable",
    "Snob.Props.C108_small_partial",
    "Snob.Props.C108_exact",
    "Snob.Props.C108_ten"
   ],
   "note": "False of the code for n=7 (C108_witness, C108_product_witness, C108_false). Proved instead: answers are stable once given (C108_stable); exact for n<=6 after all programs (C108_small_partial); the multiplicity or one less for n<=10 (C108_ten); without rounding right for all n (C108_exact)."
  },
  {
   "property": "C109",
   "status": "partial",
   "theorems": [
    "Snob.Props.C109_exact_partial",
    "Snob.Props.C109_undefined",
    "Snob.Props.C109_false",
    "Snob.Props.C109_wrapped"
   ],
   "note": "False of the code for n >= 13 (negations proved); proved for n <= 12 and every m."
  },
  {
   "property": "C11",
   "status": "proved",
   "theorems": [
    "Snob.Props.C11_partitions_sorted"
   ],
   "note": ""
  },
  {
   "property": "C110",
   "status": "proved",
   "theorems": [
    "Snob.Props.C110_convolve_error",
    "Snob.Props.C110_convolve_exact",
    "Snob.Props.C110_convolve_delta",
    "Snob.Props.C110_convolve_sharp"
   ],
   "note": "IEEE rounding with unbounded exponents."
  },
  {
   "property": "C111",
   "status": "partial",
   "theorems": [
    "Snob.Props.C111_fft_reference",
    "Snob.Props.C111_fft_partial",
    "Snob.Props.C111_fft_undefined",
    "Snob.Props.C111_fft_snsm_reference",
    "Snob.Props.C111_fft_snsm_partial",
    "Snob.Props.C111_fft_snsm_wrong",
    "Snob.Props.C111_fft_wrong",
    "Snob.Props.C111_fft_defined",
    "Snob.Props.C111_fft_silently_wrong"
   ],
   "note": "As coded (tensor views, C32) the transform is undefined for n>=6; proved for the matrix action for all n, and as coded for n<=4 and m=n-1. As coded the error is at least 1/(n-2) for n>=5, m<=n-2."
  },
  {
   "property": "C112",
   "status": "partial",
   "theorems": [
    "Snob.Props.C112_inverse_reference",
    "Snob.Props.C112_round_trip_reference",
    "Snob.Props.C112_inverse_partial",
    "Snob.Props.C112_round_trip_partial",
    "Snob.Props.C112_inverse_undefined",
    "Snob.Props.C112_inv_snsm_reference",
    "Snob.Props.C112_round_trip_snsm_reference",
    "Snob.Props.C112_inv_snsm_partial",
    "Snob.Props.C112_round_trip_snsm_partial",
    "Snob.Props.C112_inverse_defined"
   ],
   "note": "As coded (tensor views, C32) the inverse is undefined for n>=6; proved for the matrix action for all n, and as coded for n<=4 and m=n-1."
  },
  {
   "property": "C113",
   "status": "proved",
   "theorems": [
    "Snob.Props.C113_calls",
    "Snob.Props.C113_undo",
    "Snob.Props.C113_agree",
    "Snob.Props.C113_inner",
    "Snob.Props.C113_ieee",
    "Snob.Props.C113_add"
   ],
   "note": ""
  },
  {
   "property": "C114",
   "status": "partial",
   "theorems": [
    "Snob.Props.C114_fft_reference",
    "Snob.Props.C114_round_trip_reference",
    "Snob.Props.C114_inverse_reference",
    "Snob.Props.C114_fft_partial",
    "Snob.Props.C114_fft_snsm_reference",
    "Snob.Props.C114_fft_snsm_partial",
    "Snob.Props.C111_fft_undefined",
    "Snob.Props.C111_fft_wrong",
    "Snob.Props.C111_fft_snsm_wrong"
   ],
   "note": "As coded (tensor views, C32) the transform is undefined for n>=6 and wrong for n=5; proved for the matrix action for all n, and as coded for n<=4 and m=n-1."
  },
  {
   "property": "C115",
   "status": "proved",
   "theorems": [
    "Snob.Props.C115_fft",
    "Snob.Props.C115_fft_reference",
    "Snob.Props.C115_fft_snsm",
    "Snob.Props.C115_fft_snsm_reference",
    "Snob.Props.C115_inverse",
    "Snob.Props.C115_inverse_reference",
    "Snob.Props.C115_apply_left",
    "Snob.Props.C115_entries"
   ],
   "note": "As coded (tensor views) the bound holds whenever the transform returns, which it does for n<=5; with the action used for matrices it always returns."
  },
  {
   "property": "C116",
   "status": "partial",
   "theorems": [
    "Snob.Props.C116_elements_partial",
    "Snob.Props.C116_partitions_partial",
    "Snob.Props.C116_tableaux_partial",
    "Snob.Props.C116_parts_partial",
    "Snob.Props.C116_images_partial",
    "Snob.Props.C116_contains_partial",
    "Snob.Props.C116_elements_wrong",
    "Snob.Props.C116_partitions_wrong",
    "Snob.Props.C116_tableaux_wrong",
    "Snob.Props.C116_parts_wrong",
    "Snob.Props.C116_images_wrong",
    "Snob.Props.C116_contains_wrong",
    "Snob.Props.C116_minus_one_wrong",
    "Snob.Props.C116_negative_indices"
   ],
   "note": "Loops over range(len(obj)) are proved complete; loops over the object itself, membership of other permutations and negative indices do not work in the code, which is proved. negative indices are undefined behaviour"
  },
  {
   "property": "C117",
   "status": "proved",
   "theorems": [
    "Snob.Props.C117_partitions",
    "Snob.Props.C117_classes",
    "Snob.Props.C117_order_is_not_majorization"
   ],
   "note": "Linear extension of majorization, on the list and on the class indices of a group object in any reachable state."
  },
  {
   "property": "C118",
   "status": "proved",
   "theorems": [
    "Snob.Props.C118_commutative",
    "Snob.Props.C118_associative",
    "Snob.Props.C118_unit",
    "Snob.Props.C118_distributive",
    "Snob.Props.C118_dimension",
    "Snob.Props.C118_restriction",
    "Snob.Props.C118_projection"
   ],
   "note": "Exact equality of the lists returned, for real arithmetic in the characters (C105 covers rounding)."
  },
  {
   "property": "C119",
   "status": "partial",
   "theorems": [
    "Snob.Props.C119_unique",
    "Snob.Props.C119_class_functions",
    "Snob.Props.C119_inverse",
    "Snob.Props.C119_symmetric",
    "Snob.Props.C119_autocorrelation",
    "Snob.Props.C119_sums",
    "Snob.Props.C119_fft_partial"
   ],
   "note": "The equivalences are proved for all n for lists of parts that are the Fourier transform; the coded transform computes such a list for n at most 4 only (C37 proves that it fails from n=5), hence partial."
  },
  {
   "property": "C12",
   "status": "proved",
   "theorems": [
    "Snob.Props.C12_eq_equivalence",
    "Snob.Props.C12_lt_strict_total"
   ],
   "note": ""
  },
  {
   "property": "C120",
   "status": "partial",
   "theorems": [
    "Snob.Props.C120_same",
    "Snob.Props.C120_inside_partial",
    "Snob.Props.C120_outside",
    "Snob.Props.C120_fft_outside",
    "Snob.Props.C120_ifft_outside",
    "Snob.Props.C120_fft_partial",
    "Snob.Props.C120_ifft_partial",
    "Snob.Props.C120_five_wrong",
    "Snob.Props.C120_next_free",
    "Snob.Props.C120_next_free_action"
   ],
   "note": "False of the code: for [3,2,1], hence for every FFT with n at least 6 and m at most 3, the block is left (negations proved). Proved for n at most 5; and for all n for a repaired table, which is not the code."
  },
  {
   "property": "C121",
   "status": "partial",
   "theorems": [
    "Snob.Props.C121_variables_partial",
    "Snob.Props.C121_three_factors",
    "Snob.Props.C121_returned",
    "Snob.Props.C121_exact",
    "Snob.Props.C121_values"
   ],
   "note": "False of the code for products of three or more factors in one expression and for returned products with local factors (negations proved for all programs). Proved for all programs in which products are formed of named groups only."
  },
  {
   "property": "C122",
   "status": "partial",
   "theorems": [
    "Snob.Props.C122_cosets",
    "Snob.Props.C122_subgroup",
    "Snob.Props.C122_fft_partial"
   ],
   "note": "Proved for all n for the Fourier transform; the coded FFT is the Fourier transform for n≤4 only (C37)."
  },
  {
   "property": "C123",
   "status": "partial",
   "theorems": [
    "Snob.Props.C123_identity",
    "Snob.Props.C123_zero",
    "Snob.Props.C123_ones",
    "Snob.Props.C123_fft_partial",
    "Snob.Props.C123_python_ones",
    "Snob.Props.C123_python_vec_ones",
    "Snob.Props.C123_filled"
   ],
   "note": "The statements about transforms are proved for all n (for the coded FFT for n≤4, C37). The sentence about ones in Python is false; the negation is proved for all partitions except the two of dimension one. C123_filled: vectors of any type"
  },
  {
   "property": "C124",
   "status": "proved",
   "theorems": [
    "Snob.Props.C124_square_roots",
    "Snob.Props.C124_involutions",
    "Snob.Props.C124_products",
    "Snob.Props.C124_commutators",
    "Snob.Props.C124_commuting"
   ],
   "note": ""
  },
  {
   "property": "C125",
   "status": "partial",
   "theorems": [
    "Snob.Props.C125_onto_partial",
    "Snob.Props.C125_plancherel_partial",
    "Snob.Props.C125_convolution_partial",
    "Snob.Props.C125_onto_fails"
   ],
   "note": "Proved for all cyclic groups and all dihedral groups with an odd number of rotations; false of the dihedral groups with an even number (no function has a transform) and of products of cyclic groups (all matrices are zero), both proved."
  },
  {
   "property": "C126",
   "status": "partial",
   "theorems": [
    "Snob.Props.C126_kernels",
    "Snob.Props.C126_deconvolution",
    "Snob.Props.C126_fft_partial"
   ],
   "note": "Proved for all n of the Fourier transform; the coded FFT computes it for n≤4 (C37)."
  },
  {
   "property": "C127",
   "status": "partial",
   "theorems": [
    "Snob.Props.C127_powers",
    "Snob.Props.C127_distance",
    "Snob.Props.C127_mixing",
    "Snob.Props.C126_fft_partial"
   ],
   "note": "Proved for all n of the Fourier transform; the coded FFT computes it for n≤4 (C37)."
  },
  {
   "property": "C128",
   "status": "partial",
   "theorems": [
    "Snob.Props.C128_defined",
    "Snob.Props.C128_history_partial",
    "Snob.Props.C128_column_unchecked",
    "Snob.Props.C128_equal",
    "Snob.Props.C128_reach",
    "Snob.Props.C128_absent"
   ],
   "note": "Assigning to a column that does not exist is undefined behaviour instead of IndexError (C128_column_unchecked); C128_defined says exactly which programs are defined and everything is proved of those."
  },
  {
   "property": "C129",
   "status": "proved",
   "theorems": [
    "Snob.Props.C129_smoothing",
    "Snob.Props.C129_kernel",
    "Snob.Props.C129_distance",
    "Snob.Props.C129_shuffle"
   ],
   "note": "C129_smoothing is about the Fourier transform (for all n), the others about convolve and values only."
  },
  {
   "property": "C13",
   "status": "partial",
   "theorems": [
    "Snob.Props.C13_hash_disagrees",
    "Snob.Props.C13_hash_partial",
    "Snob.Props.C13_pair_order",
    "Snob.Props.C13_triple",
    "Snob.Props.C13_triple_collides"
   ],
   "note": "False of the code for partitions with trailing zero rows; proved for the others."
  },
  {
   "property": "C130",
   "status": "partial",
   "theorems": [
    "Snob.Props.C130_power_spectrum",
    "Snob.Props.C130_triple_correlation",
    "Snob.Props.C130_regular_needed",
    "Snob.Props.C130_fft_partial"
   ],
   "note": "The first three hold for all n for the Fourier transform as defined by the representations; for the transform as coded only n<=4, as for larger n the code computes something else (C37)."
  },
  {
   "property": "C131",
   "status": "proved",
   "theorems": [
    "Snob.Props.C131_types",
    "Snob.Props.C131_equivariant",
    "Snob.Props.C131_linear",
    "Snob.Props.C131_collapse"
   ],
   "note": "Numbers are real."
  },
  {
   "property": "C132",
   "status": "partial",
   "theorems": [
    "Snob.Props.C132_marginals",
    "Snob.Props.C132_band_limited",
    "Snob.Props.C132_truncate",
    "Snob.Props.C132_fft_partial"
   ],
   "note": "The first three hold for all n for the Fourier transform as defined by the representations; for the transform as coded only n<=4, as for larger n the code computes something else (C37)."
  },
  {
   "property": "C133",
   "status": "proved",
   "theorems": [
    "Snob.Props.C133_error",
    "Snob.Props.C133_nonneg",
    "Snob.Props.C133_ieee",
    "Snob.Props.C133_exact",
    "Snob.Props.C133_sharp"
   ],
   "note": "The arithmetic of cnine is assumed to be: each product and each sum rounded once, any order of summation."
  },
  {
   "property": "C134",
   "status": "proved",
   "theorems": [
    "Snob.Props.C134_check",
    "Snob.Props.C134_decides"
   ],
   "note": ""
  },
  {
   "property": "C135",
   "status": "partial",
   "theorems": [
    "Snob.Props.C135_convolution",
    "Snob.Props.C135_weights",
    "Snob.Props.C135_only_convolutions",
    "Snob.Props.C135_commuting",
    "Snob.Props.C135_isometry",
    "Snob.Props.C135_fft_partial",
    "Snob.Props.C135_both_sides"
   ],
   "note": "everything proved for all n for the Fourier transform; through the coded FFT and its inverse only n<=4, where they are right"
  },
  {
   "property": "C136",
   "status": "partial",
   "theorems": [
    "Snob.Props.C136_defined",
    "Snob.Props.C136_certifies",
    "Snob.Props.C136_generic",
    "Snob.Props.C136_agree_partial",
    "Snob.Props.C136_disagree",
    "Snob.Props.C136_first_two_partial"
   ],
   "note": "agreement holds for n<=3 only and is refuted for n>=5; for n=4 it depends on the solver (C73) the first two pairs agree for every n"
  },
  {
   "property": "C137",
   "status": "partial",
   "theorems": [
    "Snob.Props.C137_types",
    "Snob.Props.C137_equivariant_partial",
    "Snob.Props.C137_invariants_partial",
    "Snob.Props.C137_not_equivariant",
    "Snob.Props.C137_unlike_sums"
   ],
   "note": "types in full; equivariance for the permutations of the first three letters and sums of equal types, refuted beyond (n>=5, and sums of different types)"
  },
  {
   "property": "C138",
   "status": "partial",
   "theorems": [
    "Snob.Props.C138_equivariant",
    "Snob.Props.C138_products_partial",
    "Snob.Props.C138_defined",
    "Snob.Props.C138_types",
    "Snob.Props.C138_round_trip",
    "Snob.Props.C138_up_first",
    "Snob.Props.C138_up_defined_iff"
   ],
   "note": "without products in full; with products for permutations of the first two or three letters, false in general by C137_not_equivariant"
  },
  {
   "property": "C139",
   "status": "proved",
   "theorems": [
    "Snob.Props.C139_action",
    "Snob.Props.C139_action_isometry",
    "Snob.Props.C139_restriction",
    "Snob.Props.C139_adjoint",
    "Snob.Props.C139_induction",
    "Snob.Props.C139_linear",
    "Snob.Props.C139_weights"
   ],
   "note": ""
  },
  {
   "property": "C14",
   "status": "proved",
   "theorems": [
    "Snob.Props.C14_sub_partitions"
   ],
   "note": ""
  },
  {
   "property": "C140",
   "status": "proved",
   "theorems": [
    "Snob.Props.C140_fits_types",
    "Snob.Props.C140_linear",
    "Snob.Props.C140_single"
   ],
   "note": ""
  },
  {
   "property": "C141",
   "status": "proved",
   "theorems": [
    "Snob.Props.C141_error",
    "Snob.Props.C141_nonneg",
    "Snob.Props.C141_exact",
    "Snob.Props.C141_ieee"
   ],
   "note": ""
  },
  {
   "property": "C142",
   "status": "proved",
   "theorems": [
    "Snob.Props.C142_equivariant",
    "Snob.Props.C142_ieee",
    "Snob.Props.C142_copies"
   ],
   "note": ""
  },
  {
   "property": "C143",
   "status": "proved",
   "theorems": [
    "Snob.Props.C143_error",
    "Snob.Props.C143_equivariant",
    "Snob.Props.C143_rounded",
    "Snob.Props.C143_stable",
    "Snob.Props.C143_calls",
    "Snob.Props.C143_network"
   ],
   "note": ""
  },
  {
   "property": "C144",
   "status": "proved",
   "theorems": [
    "Snob.Props.C144_error",
    "Snob.Props.C144_rounded",
    "Snob.Props.C144_ieee",
    "Snob.Props.C144_exact",
    "Snob.Props.C144_stable"
   ],
   "note": ""
  },
  {
   "property": "C145",
   "status": "proved",
   "theorems": [
    "Snob.Props.C145_transforms",
    "Snob.Props.C145_action",
    "Snob.Props.C145_convolve",
    "Snob.Props.C145_vectors"
   ],
   "note": ""
  },
  {
   "property": "C146",
   "status": "proved",
   "theorems": [
    "Snob.Props.C146_program",
    "Snob.Props.C146_program_exact",
    "Snob.Props.C146_vectors",
    "Snob.Props.C146_transforms",
    "Snob.Props.C146_transforms_exact",
    "Snob.Props.C146_product",
    "Snob.Props.C146_network"
   ],
   "note": ""
  },
  {
   "property": "C15",
   "status": "proved",
   "theorems": [
    "Snob.Props.C15_add_box",
    "Snob.Props.C15_remove_box"
   ],
   "note": ""
  },
  {
   "property": "C16",
   "status": "proved",
   "theorems": [
    "Snob.Props.C16_number_of_tableaux",
    "Snob.Props.C16_dimension",
    "Snob.Props.C16_exact_divisions"
   ],
   "note": "hook length theorem for all partitions of all n; every single division is exact"
  },
  {
   "property": "C17",
   "status": "proved",
   "theorems": [
    "Snob.Props.C17_restriction_order"
   ],
   "note": "Includes termination of the recursion (fuel is never exhausted)."
  },
  {
   "property": "C18",
   "status": "partial",
   "theorems": [
    "Snob.Props.C18_order_not_sorted",
    "Snob.Props.C18_order_partial"
   ],
   "note": "False of the code; exact characterisation of when the result is sorted."
  },
  {
   "property": "C19",
   "status": "proved",
   "theorems": [
    "Snob.Props.C19_tableaux_complete"
   ],
   "note": ""
  },
  {
   "property": "C20",
   "status": "proved",
   "theorems": [
    "Snob.Props.C20_tableaux_adapted"
   ],
   "note": ""
  },
  {
   "property": "C21",
   "status": "proved",
   "theorems": [
    "Snob.Props.C21_apply_transp",
    "Snob.Props.C21_adjacent"
   ],
   "note": ""
  },
  {
   "property": "C22",
   "status": "partial",
   "theorems": [
    "Snob.Props.C22_shape_of_shape",
    "Snob.Props.C22_add_remove_partial",
    "Snob.Props.C22_remove_inner_row",
    "Snob.Props.C22_at_index"
   ],
   "note": "remove(r) is wrong for an inner row with one box; proved otherwise."
  },
  {
   "property": "C23",
   "status": "proved",
   "theorems": [
    "Snob.Props.C23_irrep_is_homomorphism",
    "Snob.Props.C23_matrix_of_product"
   ],
   "note": "operator()(sigma) of the modelled tables and in-place loops is a homomorphism, equal to Young's orthogonal form in the basis of standard tableaux; exact real arithmetic."
  },
  {
   "property": "C24",
   "status": "proved",
   "theorems": [
    "Snob.Props.C24_irrep_orthogonal"
   ],
   "note": "Orthogonality and inverse = transpose, exact real arithmetic."
  },
  {
   "property": "C25",
   "status": "proved",
   "theorems": [
    "Snob.Props.C25_apply_left",
    "Snob.Props.C25_apply_left_strided",
    "Snob.Props.C25_apply_middle"
   ],
   "note": "Any duplicate free list of columns of any width; strided version for blocks that fit into the stride; middle index of a view. The first-index tensor view is C32."
  },
  {
   "property": "C26",
   "status": "proved",
   "theorems": [
    "Snob.Props.C26_apply_left_cycle",
    "Snob.Props.C26_apply_left_inv_cycle",
    "Snob.Props.C26_apply_left_transposition",
    "Snob.Props.C26_apply_middle_cycle",
    "Snob.Props.C26_apply_middle_transposition"
   ],
   "note": "Whole-matrix and middle-index versions; column block versions with cycles are C62."
  },
  {
   "property": "C27",
   "status": "partial",
   "theorems": [
    "Snob.Props.C27_transp_partial",
    "Snob.Props.C27_transp_wrong",
    "Snob.Props.C27_transp_wrong_witness"
   ],
   "note": "Proved for i<=j+1. For i>j+1 the property is false of the code: the call returns the matrix of the descending cycle (proved for all i>j+1), with the sign representation of S3 as witness."
  },
  {
   "property": "C28",
   "status": "proved",
   "theorems": [
    "Snob.Props.C28_restriction_block_diagonal",
    "Snob.Props.C28_trivial",
    "Snob.Props.C28_sign"
   ],
   "note": "Blocks in the order of parents(), trivial and sign representation."
  },
  {
   "property": "C29",
   "status": "proved",
   "theorems": [
    "Snob.Props.C29_jucys_murphy"
   ],
   "note": "Returned diagonal and the sum of the matrices of the transpositions."
  },
  {
   "property": "C30",
   "status": "proved",
   "theorems": [
    "Snob.Props.C30_schur",
    "Snob.Props.C30_orthogonality"
   ],
   "note": "Schur's lemma for arbitrary real matrices and the orthogonality relations, for the matrices returned by the modelled operator()."
  },
  {
   "property": "C31",
   "status": "proved",
   "theorems": [
    "Snob.Props.C31_sum_of_squares",
    "Snob.Props.C31_induced_dimension",
    "Snob.Props.C31_regular_character",
    "Snob.Props.C31_entries_span"
   ],
   "note": "Dimension formulas over the modelled partition list, regular character, spanning."
  },
  {
   "property": "C32",
   "status": "partial",
   "theorems": [
    "Snob.Props.C32_view_action_partial",
    "Snob.Props.C32_view_action_iff",
    "Snob.Props.C32_view_action_loses_first_row",
    "Snob.Props.C32_view_action_small",
    "Snob.Props.C32_not_view_eq_matrix",
    "Snob.Props.C32_view_action_out_of_bounds"
   ],
   "note": "The full equality is false of the code. Proved: the view action equals the matrix action exactly when the rotation table of tau is packed (iff), all n<=4 are packed, [3,2] with tau=2 differs, [3,2,1] reads out of bounds. The effect of the two cnine routines called is assumed from the commented reference loops in SnIrrepObj.hpp."
  },
  {
   "property": "C33",
   "status": "proved",
   "theorems": [
    "Snob.Props.C33_character_value",
    "Snob.Props.C33_orthonormal",
    "Snob.Props.C33_trivial_sign"
   ],
   "note": "For every history of calls from the start of the program: SnCharacter(p)(mu) is the trace of the matrix returned by the irrep at every permutation of cycle type mu; row and column orthogonality weighted by class_size; trivial and sign character."
  },
  {
   "property": "C34",
   "status": "proved",
   "theorems": [
    "Snob.Props.C34_class_size",
    "Snob.Props.C34_classes",
    "Snob.Props.C34_sizes_sum",
    "Snob.Props.C34_class_size_index"
   ],
   "note": "class_size counts the permutations of the cycle type (cycle types from Mathlib's cycleType plus fixed points); classes partition the group; sizes add up to n!."
  },
  {
   "property": "C35",
   "status": "proved",
   "theorems": [
    "Snob.Props.C35_coeff",
    "Snob.Props.C35_symmetric"
   ],
   "note": "For all histories of calls of the banks and of coeff/CGproduct; float is exact."
  },
  {
   "property": "C36",
   "status": "proved",
   "theorems": [
    "Snob.Props.C36_product",
    "Snob.Props.C36_types",
    "Snob.Props.C36_trivial"
   ],
   "note": "Every history; the product of characters is the sum of the characters of the listed constituents, dimensions add up, nothing of positive multiplicity is skipped."
  },
  {
   "property": "C37",
   "status": "partial",
   "theorems": [
    "Snob.Props.C37_fft_reference",
    "Snob.Props.C37_fft_partial",
    "Snob.Props.C37_fft_undefined",
    "Snob.Props.C37_fft_wrong",
    "Snob.Props.C37_fft_defined",
    "Snob.Props.C37_fft_silently_wrong"
   ],
   "note": "False as coded for every n>=5: C37_fft_wrong (the result at a single group element, if any, is not the transform) and C37_fft_undefined (n>=6, every f). Proved as coded for n<=4 and, with the matrix action in place of the faulty tensor-view action (C32), for all n and f. Defined for n<=5, so that at n=5 the failure is silent."
  },
  {
   "property": "C38",
   "status": "partial",
   "theorems": [
    "Snob.Props.C38_inverse_after_forward_reference",
    "Snob.Props.C38_forward_after_inverse_reference",
    "Snob.Props.C38_inverse_after_forward_partial",
    "Snob.Props.C38_forward_after_inverse_partial",
    "Snob.Props.C38_inverse_undefined",
    "Snob.Props.C38_inverse_after_forward_wrong",
    "Snob.Props.C38_forward_after_inverse_wrong",
    "Snob.Props.C38_inverse_defined",
    "Snob.Props.C38_round_trip_silently_wrong"
   ],
   "note": "False as coded for every n>=5, in both orders: C38_inverse_after_forward_wrong (some single group element is not returned), C38_forward_after_inverse_wrong, C38_inverse_undefined (n>=6). Proved as coded for n<=4 and, with the matrix action in place of the tensor-view action, for all n."
  },
  {
   "property": "C39",
   "status": "partial",
   "theorems": [
    "Snob.Props.C39_right_translate",
    "Snob.Props.C39_left_translate",
    "Snob.Props.C39_convolve",
    "Snob.Props.C39_fft_partial"
   ],
   "note": "The three relations hold for all n between the Fourier transforms; what the code returns is the transform for n<=4 only (C37)."
  },
  {
   "property": "C40",
   "status": "partial",
   "theorems": [
    "Snob.Props.C40_fft_snsm_reference",
    "Snob.Props.C40_inv_snsm_reference",
    "Snob.Props.C40_fft_snsm_partial",
    "Snob.Props.C40_inv_snsm_partial",
    "Snob.Props.C40_columns_of_lift",
    "Snob.Props.C40_fft_snsm_wrong",
    "Snob.Props.C40_fft_snsm_undefined",
    "Snob.Props.C40_label_n_eq_m",
    "Snob.Props.C40_inverse_after_forward_wrong",
    "Snob.Props.C40_forward_after_inverse_wrong",
    "Snob.Props.C40_fft_snsm_defined",
    "Snob.Props.C40_inv_snsm_defined"
   ],
   "note": "False as coded for every n>=5, m<=n-2 (C40_fft_snsm_wrong, C40_inverse_after_forward_wrong, C40_forward_after_inverse_wrong; undefined for m<=3, n>=6) and for m=n (label). Proved as coded for n<=4 and m=n-1 and, with the matrix action, for all 1<=m<n."
  },
  {
   "property": "C41",
   "status": "proved",
   "theorems": [
    "Snob.Props.C41_translations",
    "Snob.Props.C41_laws"
   ],
   "note": ""
  },
  {
   "property": "C42",
   "status": "proved",
   "theorems": [
    "Snob.Props.C42_convolve",
    "Snob.Props.C42_associative",
    "Snob.Props.C42_bilinear",
    "Snob.Props.C42_delta"
   ],
   "note": ""
  },
  {
   "property": "C43",
   "status": "proved",
   "theorems": [
    "Snob.Props.C43_class_index"
   ],
   "note": "For every history of valid calls."
  },
  {
   "property": "C44",
   "status": "partial",
   "theorems": [
    "Snob.Props.C44_irreps_order_partial",
    "Snob.Props.C44_irreps_order_false"
   ],
   "note": "False of the code (witness). Proved: irreps[lambda] right, list complete, and the exact set of histories after which irreps[i] is the i-th partition's irrep."
  },
  {
   "property": "C45",
   "status": "partial",
   "theorems": [
    "Snob.Props.C45_character_index_partial",
    "Snob.Props.C45_character_index_false"
   ],
   "note": "False of the code for every i>=1 and every history; true for i=0."
  },
  {
   "property": "C46",
   "status": "proved",
   "theorems": [
    "Snob.Props.C46_transparent",
    "Snob.Props.C46_stable"
   ],
   "note": "Model/CombiBank threads the bank with its caches (levels, ip, partitions, ROpartitions, tableaux) through the queries. Any history of valid queries: the next answer equals that of a fresh bank and of the functions without caches; vectors returned earlier keep their contents. ip_map is modelled by search with operator==; pointers are positions."
  },
  {
   "property": "C47",
   "status": "partial",
   "theorems": [
    "Snob.Props.C47_lookup_partial",
    "Snob.Props.C47_lookup_false",
    "Snob.Props.C47_set_get"
   ],
   "note": "False of the code (witness): a zero entry is inserted. Proved: no multiplicity changes, and exactly which entry appears."
  },
  {
   "property": "C48",
   "status": "proved",
   "theorems": [
    "Snob.Props.C48_down",
    "Snob.Props.C48_frobenius",
    "Snob.Props.C48_adjoint",
    "Snob.Props.C48_dim"
   ],
   "note": "Reciprocity for single partitions and for types; dimensions."
  },
  {
   "property": "C49",
   "status": "proved",
   "theorems": [
    "Snob.Props.C49_apply",
    "Snob.Props.C49_downB",
    "Snob.Props.C49_up_of_down",
    "Snob.Props.C49_down_of_up",
    "Snob.Props.C49_down_action",
    "Snob.Props.C49_up_action"
   ],
   "note": "n >= 1 for the smaller group; real arithmetic; the order of indexed_mapB is assumed to be insertion order."
  },
  {
   "property": "C50",
   "status": "proved",
   "theorems": [
    "Snob.Props.C50_cat",
    "Snob.Props.C50_cat_action"
   ],
   "note": "All lists of vectors over one S_n, n >= 1."
  },
  {
   "property": "C51",
   "status": "proved",
   "theorems": [
    "Snob.Props.C51_cyclic_group",
    "Snob.Props.C51_implements",
    "Snob.Props.C51_irreps"
   ],
   "note": ""
  },
  {
   "property": "C52",
   "status": "proved",
   "theorems": [
    "Snob.Props.C52_implements",
    "Snob.Props.C52_group_laws",
    "Snob.Props.C52_index",
    "Snob.Props.C52_s",
    "Snob.Props.C52_r"
   ],
   "note": "s() is an element of the group exactly for n>=2."
  },
  {
   "property": "C53",
   "status": "partial",
   "theorems": [
    "Snob.Props.C53_irrep_three_wrong",
    "Snob.Props.C53_irrep_three",
    "Snob.Props.C53_irreps_partial",
    "Snob.Props.C53_orthogonal_partial"
   ],
   "note": "False for even n, k=3; all other irreps are covered."
  },
  {
   "property": "C54",
   "status": "proved",
   "theorems": [
    "Snob.Props.C54_product"
   ],
   "note": ""
  },
  {
   "property": "C55",
   "status": "proved",
   "theorems": [
    "Snob.Props.C55_functions",
    "Snob.Props.C55_set_value"
   ],
   "note": ""
  },
  {
   "property": "C56",
   "status": "partial",
   "theorems": [
    "Snob.Props.C56_false_dangling",
    "Snob.Props.C56_false_double_delete",
    "Snob.Props.C56_good_iff_partial",
    "Snob.Props.C56_defined_iff_partial",
    "Snob.Props.C56_session_first_partial",
    "Snob.Props.C56_session_after_classes"
   ],
   "note": "False of the code: negations with witnesses. Proved instead, for all legal histories: no pointer dangles iff no class-set object was destroyed; a bank is deleted twice iff two objects of the same class-set class are destroyed; a session created first keeps all banks alive. Pointers are modelled by their state (null, alive, dangling)."
  },
  {
   "property": "C57",
   "status": "proved",
   "theorems": [
    "Snob.Props.C57_exact",
    "Snob.Props.C57_overflow",
    "Snob.Props.C57_wrapped"
   ],
   "note": "exact for n<=12 with overflow as undefined behaviour; undefined for n>=13; with wrap-around hooklength is too small for every partition of every n>=13"
  },
  {
   "property": "C58",
   "status": "proved",
   "theorems": [
    "Snob.Props.C58_apply_tau",
    "Snob.Props.C58_apply_cycle",
    "Snob.Props.C58_homomorphism",
    "Snob.Props.C58_jucys_murphy"
   ],
   "note": "The class offers adjacent transpositions, contiguous cycles and JucysMurphy; views of all sizes; both partitions of the same n."
  },
  {
   "property": "C59",
   "status": "partial",
   "theorems": [
    "Snob.Props.C59_self_assignment_loses_value",
    "Snob.Props.C59_assignment_copies_partial"
   ],
   "note": "False of the code for self assignment."
  },
  {
   "property": "C60",
   "status": "proved",
   "theorems": [
    "Snob.Props.C60_content_of_difference"
   ],
   "note": ""
  },
  {
   "property": "C61",
   "status": "partial",
   "theorems": [
    "Snob.Props.C61_false",
    "Snob.Props.C61_destructor_iff_partial"
   ],
   "note": "False of the code: negation with witness. Proved instead, for all histories of valid calls: destruction is defined iff some call acted on a matrix by an adjacent transposition (evaluation at the identity and actions on views do not initialise YOR1, YOR2)."
  },
  {
   "property": "C62",
   "status": "partial",
   "theorems": [
    "Snob.Props.C62_block_cycle_partial",
    "Snob.Props.C62_block_cycle_descending",
    "Snob.Props.C62_block_cycle_witness"
   ],
   "note": "Proved for ascending cycles. False of the code for descending cycles: the block version does nothing (proved for all a>b), with a witness in the sign representation of S2."
  },
  {
   "property": "C63",
   "status": "partial",
   "theorems": [
    "Snob.Props.C63_characters_order_partial",
    "Snob.Props.C63_characters_order_false"
   ],
   "note": "False of the code (witness). Proved: characters[lambda] right, and the exact set of histories after which characters[i] is the i-th character."
  },
  {
   "property": "C64",
   "status": "partial",
   "theorems": [
    "Snob.Props.C64_py_inv_snsm_label",
    "Snob.Props.C64_py_inv_snsm_partial"
   ],
   "note": "False for m>=2 (the binding calls inv); holds for m=1 where the transforms are defined."
  },
  {
   "property": "C65",
   "status": "partial",
   "theorems": [
    "Snob.Props.C65_product_irreps_wrong",
    "Snob.Props.C65_product_irreps_partial"
   ],
   "note": "False of the code; the negation is proved, and what the code does return: a matrix of the right dimensions with all entries zero."
  },
  {
   "property": "C66",
   "status": "partial",
   "theorems": [
    "Snob.Props.C66_restricted_false",
    "Snob.Props.C66_restricted_partial"
   ],
   "note": "False of the code for every type of positive dimension; proved: the original representation is returned."
  },
  {
   "property": "C67",
   "status": "partial",
   "theorems": [
    "Snob.Props.C67_bank_false",
    "Snob.Props.C67_bank_partial"
   ],
   "note": "False of the code across different n (for all histories with a non-empty type); proved for one n."
  },
  {
   "property": "C68",
   "status": "proved",
   "theorems": [
    "Snob.Props.C68_accumulate_up"
   ],
   "note": "Under the conditions the callers establish: the vector has enough columns, the type of sub is the restriction of tau."
  },
  {
   "property": "C69",
   "status": "proved",
   "theorems": [
    "Snob.Props.C69_inner_products",
    "Snob.Props.C69_length",
    "Snob.Props.C69_parts"
   ],
   "note": "For n up to 1234567 (a marker value in learn), over the reals; the solver is any that returns orthonormal eigenvectors."
  },
  {
   "property": "C70",
   "status": "proved",
   "theorems": [
    "Snob.Props.C70_linear_left",
    "Snob.Props.C70_linear_right"
   ],
   "note": "Same conditions as C69."
  },
  {
   "property": "C71",
   "status": "partial",
   "theorems": [
    "Snob.Props.C71_columns_undefined",
    "Snob.Props.C71_defined_iff",
    "Snob.Props.C71_parts",
    "Snob.Props.C71_columns_partial"
   ],
   "note": "False of the code for every n>=2; exact condition for being defined; proved for n=1."
  },
  {
   "property": "C72",
   "status": "proved",
   "theorems": [
    "Snob.Props.C72_unit"
   ],
   "note": "Both sides, all n; exact if the solver returns 1 for matrices with one entry."
  },
  {
   "property": "C73",
   "status": "partial",
   "theorems": [
    "Snob.Props.C73_not_equivariant",
    "Snob.Props.C73_not_equivariant_four",
    "Snob.Props.C73_equivariant_partial",
    "Snob.Props.C73_first_three_partial"
   ],
   "note": "False of the code for every n>=5 and every solver; for n=4 false for every solver up to the signs of its eigenvectors; proved for n<=3. for every n the product commutes with the permutations of the first three letters (C73_first_three_partial)"
  },
  {
   "property": "C74",
   "status": "partial",
   "theorems": [
    "Snob.Props.C74_product_partial",
    "Snob.Props.C74_missing",
    "Snob.Props.C74_undefined"
   ],
   "note": "Proved for types with the same irreps; otherwise false of the code (both cases proved): the part is missing, or the assertion in get_matrix fails."
  },
  {
   "property": "C75",
   "status": "proved",
   "theorems": [
    "Snob.Props.C75_equivariant",
    "Snob.Props.C75_linear",
    "Snob.Props.C75_composition"
   ],
   "note": "For all weights and vectors for which the product is defined (exactly when every part has a matrix with as many columns, see C74)."
  },
  {
   "property": "C76",
   "status": "proved",
   "theorems": [
    "Snob.Props.C76_complete",
    "Snob.Props.C76_unique"
   ],
   "note": "All linear maps commuting with the action, via Schur's lemma."
  },
  {
   "property": "C77",
   "status": "partial",
   "theorems": [
    "Snob.Props.C77_from_vectors_partial",
    "Snob.Props.C77_undefined"
   ],
   "note": "False of the code: the tensors have one dimension, the product with any non-empty vector is undefined; partial: irreps and number of entries."
  },
  {
   "property": "C78",
   "status": "proved",
   "theorems": [
    "Snob.Props.C78_apply",
    "Snob.Props.C78_transposition",
    "Snob.Props.C78_type",
    "Snob.Props.C78_down",
    "Snob.Props.C78_accumulate_up"
   ],
   "note": "Simulation of the batched code, member by member."
  },
  {
   "property": "C79",
   "status": "partial",
   "theorems": [
    "Snob.Props.C79_up_undefined",
    "Snob.Props.C79_up_partial"
   ],
   "note": "False of the code for partitions with two corners (undefined, though up of every member is defined); holds for rectangles."
  },
  {
   "property": "C80",
   "status": "partial",
   "theorems": [
    "Snob.Props.C80_unchanged",
    "Snob.Props.C80_unchanged_cycle",
    "Snob.Props.C80_inplace_false",
    "Snob.Props.C80_inplace_partial"
   ],
   "note": "False of the code for every n>=2 and batch size; holds for the identity."
  },
  {
   "property": "C81",
   "status": "proved",
   "theorems": [
    "Snob.Props.C81_members",
    "Snob.Props.C81_parts",
    "Snob.Props.C81_learn",
    "Snob.Props.C81_learn_parts",
    "Snob.Props.C81_inner_products",
    "Snob.Props.C81_sizes"
   ],
   "note": "Solver is a parameter; C81_inner_products requires EigOk, n<=1234567."
  },
  {
   "property": "C82",
   "status": "partial",
   "theorems": [
    "Snob.Props.C82_plancherel",
    "Snob.Props.C82_fft_reference",
    "Snob.Props.C82_inverse_reference",
    "Snob.Props.C82_fft_partial",
    "Snob.Props.C82_inverse_partial",
    "Snob.Props.C82_sn_partial",
    "Snob.Props.C82_fft_false",
    "Snob.Props.C82_sn_false"
   ],
   "note": "The formula holds for Fourier transforms for all n and m, and for the FFT with the matrix action. The code as written satisfies it for n<=4 and m=n-1; it is false for every n>=5, m<=n-2 (negation proved)."
  },
  {
   "property": "C83",
   "status": "proved",
   "theorems": [
    "Snob.Props.C83_group",
    "Snob.Props.C83_gradients",
    "Snob.Props.C83_convolve"
   ],
   "note": "Python's unbound names are read as the saved ones."
  },
  {
   "property": "C84",
   "status": "partial",
   "theorems": [
    "Snob.Props.C84_convolve_partial",
    "Snob.Props.C84_convolve_false"
   ],
   "note": "False of the code for every n>=3 (negation proved); true for n<=2."
  },
  {
   "property": "C85",
   "status": "partial",
   "theorems": [
    "Snob.Props.C85_cycle",
    "Snob.Props.C85_transposition",
    "Snob.Props.C85_cycle_inv_partial",
    "Snob.Props.C85_inv_descending",
    "Snob.Props.C85_inv_false"
   ],
   "note": "Missing: apply_inplace_inv with descending cycles, where it does nothing (negation proved)."
  },
  {
   "property": "C86",
   "status": "partial",
   "theorems": [
    "Snob.Props.C86_add_partial",
    "Snob.Props.C86_add_apply",
    "Snob.Props.C86_add_false"
   ],
   "note": "Missing: vectors of different types, which are added by position (negation proved)."
  },
  {
   "property": "C87",
   "status": "partial",
   "theorems": [
    "Snob.Props.C87_class_function_partial",
    "Snob.Props.C87_foreign",
    "Snob.Props.C87_foreign_false"
   ],
   "note": "Missing: partitions of other numbers, which are not refused (what is read is proved; negation proved)."
  },
  {
   "property": "C88",
   "status": "proved",
   "theorems": [
    "Snob.Props.C88_expansion"
   ],
   "note": "The values of characters and the class sizes are those the calls return after any history."
  },
  {
   "property": "C89",
   "status": "proved",
   "theorems": [
    "Snob.Props.C89_character_integer",
    "Snob.Props.C89_entries",
    "Snob.Props.C89_rational_form"
   ],
   "note": "All n; characters after every history of calls."
  },
  {
   "property": "C90",
   "status": "partial",
   "theorems": [
    "Snob.Props.C90_values_partial",
    "Snob.Props.C90_clean_partial",
    "Snob.Props.C90_self_assign",
    "Snob.Props.C90_moved_from",
    "Snob.Props.C90_full_fails",
    "Snob.Props.C90_no_double_free",
    "Snob.Props.C90_default"
   ],
   "note": "Every program without x=x by copying and without use of objects that are gone or moved from is defined, shows the expected values and gives all memory back. x=x of a nonempty object is undefined (C90_self_assign, C90_full_fails), and so are getn and copies of an object moved from (C90_moved_from)."
  },
  {
   "property": "C91",
   "status": "partial",
   "theorems": [
    "Snob.Props.C91_values_partial",
    "Snob.Props.C91_copies",
    "Snob.Props.C91_shared",
    "Snob.Props.C91_lost",
    "Snob.Props.C91_full_fails"
   ],
   "note": "Programs that neither assign nor copy an object with tensors are right, and a program without assignments is defined exactly if it copies only objects without tensors; otherwise the destructor deletes a tensor twice (shallow copies)."
  },
  {
   "property": "C92",
   "status": "partial",
   "theorems": [
    "Snob.Props.C92_inversion_partial",
    "Snob.Props.C92_dihedral_even_fails",
    "Snob.Props.C92_product_fails"
   ],
   "note": "True of cyclic groups and of dihedral groups with an odd number of rotations; with an even number there is no transform, on products everything comes back as zero."
  },
  {
   "property": "C93",
   "status": "partial",
   "theorems": [
    "Snob.Props.C93_translations_partial",
    "Snob.Props.C93_inv_fails"
   ],
   "note": "left and right hold on cyclic and odd dihedral groups; inv exactly for functions with real values."
  },
  {
   "property": "C94",
   "status": "proved",
   "theorems": [
    "Snob.Props.C94_mirror",
    "Snob.Props.C94_matrices",
    "Snob.Props.C94_characters",
    "Snob.Props.C94_symmetric",
    "Snob.Props.C94_multiplicities",
    "Snob.Props.C94_sign_product"
   ],
   "note": "All shapes, permutations and histories."
  },
  {
   "property": "C95",
   "status": "proved",
   "theorems": [
    "Snob.Props.C95_class_sum",
    "Snob.Props.C95_transpositions"
   ],
   "note": "All shapes, classes and histories; transpositions for n>=2."
  },
  {
   "property": "C96",
   "status": "proved",
   "theorems": [
    "Snob.Props.C96_branching"
   ],
   "note": "Restriction and induction, all n>=1 and all histories."
  },
  {
   "property": "C97",
   "status": "proved",
   "theorems": [
    "Snob.Props.C97_forward",
    "Snob.Props.C97_forward_snsm",
    "Snob.Props.C97_same_type",
    "Snob.Props.C97_inverse",
    "Snob.Props.C97_inverse_snsm"
   ],
   "note": "Exact arithmetic; the action on views as coded."
  },
  {
   "property": "C98",
   "status": "proved",
   "theorems": [
    "Snob.Props.C98_request",
    "Snob.Props.C98_forward",
    "Snob.Props.C98_inverse",
    "Snob.Props.C98_forward_snsm",
    "Snob.Props.C98_inverse_snsm",
    "Snob.Props.C98_shared"
   ],
   "note": ""
  },
  {
   "property": "C99",
   "status": "proved",
   "theorems": [
    "Snob.Props.C99_result",
    "Snob.Props.C99_result_sn",
    "Snob.Props.C99_number_of_values",
    "Snob.Props.C99_other_group",
    "Snob.Props.C99_made_vector",
    "Snob.Props.C99_made_vector_sn"
   ],
   "note": ""
  }
 ]
}
