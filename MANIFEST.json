{
 "claims": [
  {
   "property": "C01",
   "status": "proved",
   "theorems": [
    "Verif.C01_gcd",
    "Verif.C01_gcd_debug",
    "Verif.C01_gcd_total",
    "Verif.C01_extremes"
   ],
   "note": "Complete input/output behaviour of gcd on i64 in both builds; the exceptional i64::MIN cases are part of C01_gcd and shown by C01_extremes."
  },
  {
   "property": "C02",
   "status": "partial",
   "theorems": [
    "Verif.C02_refuted",
    "Verif.C02_lcm_partial"
   ],
   "note": "False as documented (negative result for arguments of opposite sign, lcm(0,0) panics): C02_refuted. C02_lcm_partial proves the absolute value and sign otherwise."
  },
  {
   "property": "C03",
   "status": "proved",
   "theorems": [
    "Verif.C03_new",
    "Verif.C03_new_i64",
    "Verif.C03_new_zero",
    "Verif.C03_new_total"
   ],
   "note": ""
  },
  {
   "property": "C04",
   "status": "proved",
   "theorems": [
    "Verif.C04_new_eq"
   ],
   "note": ""
  },
  {
   "property": "C05",
   "status": "proved",
   "theorems": [
    "Verif.C05_exact",
    "Verif.C05_sum",
    "Verif.C05_div_zero"
   ],
   "note": ""
  },
  {
   "property": "C06",
   "status": "partial",
   "theorems": [
    "Verif.C06_refuted",
    "Verif.C06_simplest_partial",
    "Verif.C06_pow_partial"
   ],
   "note": "False for + and - (1/2+1/2 = 4/4); holds for every other operation and for sums with coprime denominators."
  },
  {
   "property": "C07",
   "status": "proved",
   "theorems": [
    "Verif.C07_zero"
   ],
   "note": ""
  },
  {
   "property": "C08",
   "status": "partial",
   "theorems": [
    "Verif.C08_recip_partial",
    "Verif.C08_refuted"
   ],
   "note": "Inverse proved for nonzero rationals; recip of zero returns 0/0."
  },
  {
   "property": "C09",
   "status": "partial",
   "theorems": [
    "Verif.C09_pow_partial",
    "Verif.C09_pow_neg_partial",
    "Verif.C09_refuted"
   ],
   "note": "Exponents in [0,2^32) and negative exponents of positive bases; other exponents refuted."
  },
  {
   "property": "C10",
   "status": "proved",
   "theorems": [
    "Verif.C10_cmp"
   ],
   "note": ""
  },
  {
   "property": "C11",
   "status": "partial",
   "theorems": [
    "Verif.C11_refuted",
    "Verif.C11_cmp_eq_partial"
   ],
   "note": "False for unreduced sums; holds on simplest forms."
  },
  {
   "property": "C13",
   "status": "proved",
   "theorems": [
    "Verif.C13_integer",
    "Verif.C13_rational"
   ],
   "note": ""
  },
  {
   "property": "C14",
   "status": "proved",
   "theorems": [
    "Verif.C14_from_vec",
    "Verif.C14_from_vec_clean"
   ],
   "note": ""
  },
  {
   "property": "C15",
   "status": "partial",
   "theorems": [
    "Verif.C15_refuted",
    "Verif.C15_trim_zeros_partial"
   ],
   "note": "False on nonempty all-zero vectors, which trim_zeros returns unchanged; the complete behaviour is C15_trim_zeros_partial."
  },
  {
   "property": "C16",
   "status": "proved",
   "theorems": [
    "Verif.C16_add",
    "Verif.C16_add_laws",
    "Verif.C16_add_release_wraps"
   ],
   "note": ""
  },
  {
   "property": "C17",
   "status": "proved",
   "theorems": [
    "Verif.C17_checked_sub"
   ],
   "note": ""
  },
  {
   "property": "C18",
   "status": "proved",
   "theorems": [
    "Verif.C18_is_succ"
   ],
   "note": ""
  },
  {
   "property": "C19",
   "status": "proved",
   "theorems": [
    "Verif.C19_total_deg",
    "Verif.C19_total_deg_add"
   ],
   "note": ""
  },
  {
   "property": "C20",
   "status": "proved",
   "theorems": [
    "Verif.C20_textbook",
    "Verif.C20_graded_panics",
    "Verif.C20_release_wraps"
   ],
   "note": "In an overflow-checked build; C20_release_wraps shows the graded orders are wrong without overflow checks."
  },
  {
   "property": "C21",
   "status": "proved",
   "theorems": [
    "Verif.C21_total_order"
   ],
   "note": ""
  },
  {
   "property": "C22",
   "status": "proved",
   "theorems": [
    "Verif.C22_multiplicative"
   ],
   "note": ""
  },
  {
   "property": "C23",
   "status": "proved",
   "theorems": [
    "Verif.C23_well_order",
    "Verif.C23_bound_needed"
   ],
   "note": ""
  },
  {
   "property": "C24",
   "status": "proved",
   "theorems": [
    "Verif.C24_history"
   ],
   "note": ""
  },
  {
   "property": "C25",
   "status": "proved",
   "theorems": [
    "Verif.C25_add"
   ],
   "note": ""
  },
  {
   "property": "C26",
   "status": "proved",
   "theorems": [
    "Verif.C26_sub"
   ],
   "note": ""
  },
  {
   "property": "C27",
   "status": "proved",
   "theorems": [
    "Verif.C27_mul"
   ],
   "note": ""
  },
  {
   "property": "C28",
   "status": "proved",
   "theorems": [
    "Verif.C28_div",
    "Verif.C28_div_zero"
   ],
   "note": ""
  },
  {
   "property": "C29",
   "status": "proved",
   "theorems": [
    "Verif.C29_unique",
    "Verif.C29_onto",
    "Verif.C29_ring_laws"
   ],
   "note": ""
  },
  {
   "property": "C30",
   "status": "proved",
   "theorems": [
    "Verif.C30_is_zero"
   ],
   "note": ""
  },
  {
   "property": "C31",
   "status": "proved",
   "theorems": [
    "Verif.C31_eval",
    "Verif.C31_eval_hom"
   ],
   "note": ""
  },
  {
   "property": "C32",
   "status": "proved",
   "theorems": [
    "Verif.C32_try_div"
   ],
   "note": ""
  },
  {
   "property": "C33",
   "status": "proved",
   "theorems": [
    "Verif.C33_mdeg_var",
    "Verif.C33_term_var",
    "Verif.C33_terms",
    "Verif.C33_polys",
    "Verif.C33_poly_new",
    "Verif.C33_new_duplicates"
   ],
   "note": ""
  },
  {
   "property": "C34",
   "status": "proved",
   "theorems": [
    "Verif.C34_sort_terms"
   ],
   "note": ""
  },
  {
   "property": "C35",
   "status": "proved",
   "theorems": [
    "Verif.C35_leading_term"
   ],
   "note": ""
  },
  {
   "property": "C36",
   "status": "proved",
   "theorems": [
    "Verif.C36_divide_identity"
   ],
   "note": ""
  },
  {
   "property": "C37",
   "status": "proved",
   "theorems": [
    "Verif.C37_remainder_reduced"
   ],
   "note": ""
  },
  {
   "property": "C38",
   "status": "proved",
   "theorems": [
    "Verif.C38_degree_bound"
   ],
   "note": ""
  },
  {
   "property": "C39",
   "status": "proved",
   "theorems": [
    "Verif.C39_divide_terminates",
    "Verif.C39_divide_total"
   ],
   "note": ""
  },
  {
   "property": "C40",
   "status": "proved",
   "theorems": [
    "Verif.C40_monic_lcm",
    "Verif.C40_monic_lcm_zero"
   ],
   "note": ""
  },
  {
   "property": "C41",
   "status": "proved",
   "theorems": [
    "Verif.C41_try_reduce",
    "Verif.C41_is_sPolynomial"
   ],
   "note": ""
  },
  {
   "property": "C42",
   "status": "proved",
   "theorems": [
    "Verif.C42_criterion"
   ],
   "note": ""
  },
  {
   "property": "C43",
   "status": "proved",
   "theorems": [
    "Verif.C43_ideal"
   ],
   "note": ""
  },
  {
   "property": "C44",
   "status": "proved",
   "theorems": [
    "Verif.C44_groebner"
   ],
   "note": ""
  },
  {
   "property": "C45",
   "status": "proved",
   "theorems": [
    "Verif.C45_terminates"
   ],
   "note": ""
  },
  {
   "property": "C46",
   "status": "partial",
   "theorems": [
    "Verif.C46_refuted",
    "Verif.C46_reduced_partial",
    "Verif.C46_monic_partial",
    "Verif.C46_coefs_partial"
   ],
   "note": "Inter-reducedness proved; monicity is false (the input generators are never normalised), proved for monic input."
  },
  {
   "property": "C47",
   "status": "partial",
   "theorems": [
    "Verif.C47_refuted",
    "Verif.C47_canonical_partial",
    "Verif.C47_monic_partial"
   ],
   "note": "Uniqueness proved up to nonzero scalar factors, and exactly for monic input; false in general."
  },
  {
   "property": "C48",
   "status": "proved",
   "theorems": [
    "Verif.C48_membership",
    "Verif.C48_unique"
   ],
   "note": ""
  },
  {
   "property": "C49",
   "status": "partial",
   "theorems": [
    "Verif.C49_refuted",
    "Verif.C49_no_panic_partial"
   ],
   "note": "False: a zero generator makes both routines panic. Proved for nonzero generators."
  },
  {
   "property": "C12",
   "status": "proved",
   "theorems": [
    "Verif.C12_pivot"
   ],
   "note": ""
  },
  {
   "property": "C50",
   "status": "proved",
   "theorems": [
    "Verif.C50_write",
    "Verif.C50_swap",
    "Verif.C50_swap_out",
    "Verif.C50_out_of_bounds",
    "Verif.C50_release_wraps"
   ],
   "note": "Out-of-bounds panics need overflow checks; without them C50_release_wraps shows the offset wrapping around."
  },
  {
   "property": "C51",
   "status": "proved",
   "theorems": [
    "Verif.C51_identity",
    "Verif.C51_zero",
    "Verif.C51_e",
    "Verif.C51_from_col_vectors",
    "Verif.C51_from_row_vectors",
    "Verif.C51_from_vectors_empty",
    "Verif.C51_permutation_from_vec"
   ],
   "note": ""
  },
  {
   "property": "C52",
   "status": "proved",
   "theorems": [
    "Verif.C52_add",
    "Verif.C52_smul",
    "Verif.C52_mul",
    "Verif.C52_incompatible"
   ],
   "note": ""
  },
  {
   "property": "C53",
   "status": "proved",
   "theorems": [
    "Verif.C53_transpose",
    "Verif.C53_involution"
   ],
   "note": ""
  },
  {
   "property": "C54",
   "status": "partial",
   "theorems": [
    "Verif.C54_refuted",
    "Verif.C54_scale",
    "Verif.C54_permutation",
    "Verif.C54_replacement_partial"
   ],
   "note": "False for replacement(n, s, s, x); proved for scaling, permutation, and replacement of distinct rows."
  },
  {
   "property": "C55",
   "status": "partial",
   "theorems": [
    "Verif.C55_refuted",
    "Verif.C55_read",
    "Verif.C55_row_mut",
    "Verif.C55_row_out",
    "Verif.C55_col_mut_partial"
   ],
   "note": "False for get_col_iter_mut on a matrix that is not square; proved for the other iterators and for square matrices."
  },
  {
   "property": "C56",
   "status": "proved",
   "theorems": [
    "Verif.C56_dot",
    "Verif.C56_frobenius_norm"
   ],
   "note": ""
  },
  {
   "property": "C57",
   "status": "proved",
   "theorems": [
    "Verif.C57_epsilon_equals"
   ],
   "note": ""
  },
  {
   "property": "C58",
   "status": "proved",
   "theorems": [
    "Verif.C58_triangular"
   ],
   "note": ""
  },
  {
   "property": "C59",
   "status": "proved",
   "theorems": [
    "Verif.C59_lu"
   ],
   "note": ""
  },
  {
   "property": "C60",
   "status": "proved",
   "theorems": [
    "Verif.C60_lu_echelon"
   ],
   "note": ""
  },
  {
   "property": "C61",
   "status": "proved",
   "theorems": [
    "Verif.C61_row_echelon"
   ],
   "note": ""
  },
  {
   "property": "C62",
   "status": "proved",
   "theorems": [
    "Verif.C62_rref",
    "Verif.C62_unique"
   ],
   "note": ""
  },
  {
   "property": "C63",
   "status": "proved",
   "theorems": [
    "Verif.C63_rank_nullity"
   ],
   "note": ""
  },
  {
   "property": "C64",
   "status": "proved",
   "theorems": [
    "Verif.C64_kernel"
   ],
   "note": ""
  },
  {
   "property": "C65",
   "status": "proved",
   "theorems": [
    "Verif.C65_range"
   ],
   "note": ""
  },
  {
   "property": "C66",
   "status": "proved",
   "theorems": [
    "Verif.C66_rational",
    "Verif.C66_exact"
   ],
   "note": ""
  },
  {
   "property": "C67",
   "status": "proved",
   "theorems": [
    "Verif.C67_lu_row_echelon"
   ],
   "note": ""
  },
  {
   "property": "C68",
   "status": "proved",
   "theorems": [
    "Verif.C68_num_to_seq",
    "Verif.C68_num_to_seq_overflow",
    "Verif.C68_num_to_seq_base_zero",
    "Verif.C68_num_to_seq_base_one",
    "Verif.C68_num_to_seq_wraps"
   ],
   "note": "The other theorems say what happens outside the stated range."
  },
  {
   "property": "C69",
   "status": "partial",
   "theorems": [
    "Verif.C69_refuted",
    "Verif.C69_refuted_truncation",
    "Verif.C69_mat_iterator_partial",
    "Verif.C69_mat_iterator_empty_partial"
   ],
   "note": "False for an empty value slice with n*m = 0 and for n*m >= 2^32. Proved for nonempty slices when len^(n*m+1) <= 2^64, and for empty slices with 0 < n*m < 2^32."
  },
  {
   "property": "C70",
   "status": "proved",
   "theorems": [
    "Verif.C70_box_iter",
    "Verif.C70_index_iter"
   ],
   "note": ""
  },
  {
   "property": "C71",
   "status": "proved",
   "theorems": [
    "Verif.C71_cone",
    "Verif.Rational.lawfulOrd"
   ],
   "note": "For every coefficient type implementing a linearly ordered field; Rational.lawfulOrd gives the rationals."
  },
  {
   "property": "C72",
   "status": "partial",
   "theorems": [
    "Verif.C72_refuted",
    "Verif.C72_cone_new_panics",
    "Verif.C72_cone_new_partial"
   ],
   "note": "False: panics whenever the generators span less than a plane. Proved when they span at least a plane."
  },
  {
   "property": "C77",
   "status": "partial",
   "theorems": [
    "Verif.C77_refuted",
    "Verif.C77_cone_complete_partial"
   ],
   "note": "False when the first generator lies on the facet (the normal is then never reoriented). Proved when it does not."
  },
  {
   "property": "C78",
   "status": "partial",
   "theorems": [
    "Verif.C78_refuted",
    "Verif.C78_cone_proper_partial"
   ],
   "note": "False when the cone is not full-dimensional. Proved for full-dimensional cones."
  },
  {
   "property": "C73",
   "status": "proved",
   "theorems": [
    "Verif.C73_superscript"
   ],
   "note": ""
  },
  {
   "property": "C74",
   "status": "proved",
   "theorems": [
    "Verif.C74_display_mdeg",
    "Verif.C74_noncanonical"
   ],
   "note": "C74_noncanonical shows that canonicity is needed."
  },
  {
   "property": "C75",
   "status": "proved",
   "theorems": [
    "Verif.C75_display_poly",
    "Verif.C75_display_total"
   ],
   "note": "Both build profiles; C75_display_total says when the display does not panic."
  },
  {
   "property": "C79",
   "status": "partial",
   "theorems": [
    "Verif.C79_refuted",
    "Verif.C79_shorthand_partial",
    "Verif.C79_wrong",
    "Verif.C79_letters"
   ],
   "note": "False for w, u, v: C79_wrong says that their powers display as powers of u, of v, and as X[0, 0, 0, 0, 0, d]. Proved for x, y, z."
  },
  {
   "property": "C76",
   "status": "proved",
   "theorems": [
    "Verif.C76_poly",
    "Verif.C76_computer",
    "Verif.C76_mat",
    "Verif.C76_elimination",
    "Verif.C76_cone",
    "Verif.C76_display"
   ],
   "note": "Whatever the checked build returns the unchecked build returns, for every operation on polynomials, division and Groebner bases (four orders), matrices, elimination, cones and display; witnesses show the builds do differ when the checked one panics."
  },
  {
   "property": "C80",
   "status": "proved",
   "theorems": [
    "Verif.C80_rational",
    "Verif.C80_integer"
   ],
   "note": ""
  },
  {
   "property": "C81",
   "status": "proved",
   "theorems": [
    "Verif.C81_stability_cmp",
    "Verif.C81_pivot"
   ],
   "note": ""
  },
  {
   "property": "C82",
   "status": "proved",
   "theorems": [
    "Verif.C82_lcm"
   ],
   "note": ""
  },
  {
   "property": "C83",
   "status": "proved",
   "theorems": [
    "Verif.C83_pow"
   ],
   "note": ""
  },
  {
   "property": "C84",
   "status": "proved",
   "theorems": [
    "Verif.C84_add",
    "Verif.C84_sub",
    "Verif.C84_new",
    "Verif.C84_mul",
    "Verif.C84_div",
    "Verif.C84_others"
   ],
   "note": ""
  },
  {
   "property": "C85",
   "status": "proved",
   "theorems": [
    "Verif.C85_text",
    "Verif.C85_short",
    "Verif.C85_injective"
   ],
   "note": ""
  },
  {
   "property": "C86",
   "status": "proved",
   "theorems": [
    "Verif.C86_main"
   ],
   "note": ""
  },
  {
   "property": "C87",
   "status": "proved",
   "theorems": [
    "Verif.C87_lu_row_echelon",
    "Verif.C87_original"
   ],
   "note": ""
  },
  {
   "property": "C88",
   "status": "proved",
   "theorems": [
    "Verif.Flt.C88_stability_cmp",
    "Verif.Flt.C88_zero",
    "Verif.Flt.C88_partial_cmp"
   ],
   "note": "f32 and f64 are modelled as IEEE binary32 and binary64 with exact round-to-nearest-even."
  },
  {
   "property": "C89",
   "status": "proved",
   "theorems": [
    "Verif.Flt.C89_epsilon_equals",
    "Verif.Flt.C89_symm",
    "Verif.Flt.C89_refl",
    "Verif.Flt.C89_large"
   ],
   "note": ""
  },
  {
   "property": "C90",
   "status": "partial",
   "theorems": [
    "Verif.Flt.C90_refuted",
    "Verif.Flt.C89_symm",
    "Verif.Flt.C89_refl"
   ],
   "note": "False: not transitive (0, 2^-53, 2^-52 in f64), not reflexive at infinities and NaN. Symmetry and reflexivity on finite numbers are proved."
  },
  {
   "property": "C91",
   "status": "proved",
   "theorems": [
    "Verif.Flt.C91_get_max_index",
    "Verif.Flt.C91_pivot"
   ],
   "note": ""
  },
  {
   "property": "C92",
   "status": "proved",
   "theorems": [
    "Verif.C92_lu",
    "Verif.C92_row_echelon",
    "Verif.Flt.C92_float",
    "Verif.Flt.tame"
   ],
   "note": "No law of arithmetic is assumed of the coefficient type."
  },
  {
   "property": "C93",
   "status": "partial",
   "theorems": [
    "Verif.Flt.C93_refuted",
    "Verif.Flt.C93_rank_refuted",
    "Verif.Flt.C93_panic_refuted",
    "Verif.Flt.C92_float"
   ],
   "note": "False: 49*(1/49) != 1 in f64, and 41*(1/41) != 1 in f32, leaves a nonzero entry below the pivot, the rank of the 2x1 matrix [49;49] is 2 and nullity underflows; an overflowing pivot row gives NaN and a panic. What does hold over f64 is C92; C231 bounds the entries for which there is no panic."
  },
  {
   "property": "C94",
   "status": "partial",
   "theorems": [
    "Verif.Flt.C94_refuted",
    "Verif.C94_add_partial",
    "Verif.C94_sub_partial"
   ],
   "note": "False for products over f64 (underflow to a zero coefficient). Proved for + and - with any q."
  },
  {
   "property": "C95",
   "status": "partial",
   "theorems": [
    "Verif.Flt.C95_refuted",
    "Verif.C95_remainder_partial"
   ],
   "note": "Termination is false over f64 (underflowing quotient, both builds, all orders). If divide returns, the remainder is reduced. C230 proves termination where nothing overflows or underflows."
  },
  {
   "property": "C96",
   "status": "partial",
   "theorems": [
    "Verif.Flt.C96_refuted",
    "Verif.Flt.C96_partial",
    "Verif.Flt.C96_run",
    "Verif.Flt.C96_inf"
   ],
   "note": "False: the squared norm is compared with EPSILON, so entries may differ by 2^-27 (f32: 2^-12). Proved: finite, and difference below 2^-26 (f32: 2^-11)."
  },
  {
   "property": "C97",
   "status": "proved",
   "theorems": [
    "Verif.C97_sorted_normal_form",
    "Verif.C97_exact"
   ],
   "note": ""
  },
  {
   "property": "C98",
   "status": "proved",
   "theorems": [
    "Verif.C98_descending",
    "Verif.C98_irreducible",
    "Verif.C98_idempotent"
   ],
   "note": "Overflow panics aside."
  },
  {
   "property": "C99",
   "status": "proved",
   "theorems": [
    "Verif.C99_unit_ideal",
    "Verif.C99_solvable"
   ],
   "note": "Overflow panics aside."
  },
  {
   "property": "C100",
   "status": "proved",
   "theorems": [
    "Verif.C100_congruence",
    "Verif.C100_additive",
    "Verif.C100_multiplicative"
   ],
   "note": ""
  },
  {
   "property": "C101",
   "status": "proved",
   "theorems": [
    "Verif.C101_elimination",
    "Verif.C101_elimination_rev"
   ],
   "note": "Overflow panics aside."
  },
  {
   "property": "C102",
   "status": "proved",
   "theorems": [
    "Verif.C102_fixed_point"
   ],
   "note": "Overflow panics aside."
  },
  {
   "property": "C103",
   "status": "proved",
   "theorems": [
    "Verif.C103_never_returns",
    "Verif.C103_never_true",
    "Verif.C103_single",
    "Verif.C103_panics"
   ],
   "note": ""
  },
  {
   "property": "C104",
   "status": "proved",
   "theorems": [
    "Verif.C104_reduced"
   ],
   "note": ""
  },
  {
   "property": "C105",
   "status": "proved",
   "theorems": [
    "Verif.C105_gcd"
   ],
   "note": "Overflow panics aside."
  },
  {
   "property": "C106",
   "status": "proved",
   "theorems": [
    "Verif.C106_macaulay",
    "Verif.C106_finite"
   ],
   "note": "Overflow panics aside."
  },
  {
   "property": "C107",
   "status": "proved",
   "theorems": [
    "Verif.C107_membership"
   ],
   "note": "Overflow panics aside."
  },
  {
   "property": "C108",
   "status": "proved",
   "theorems": [
    "Verif.Flt.C108_poly",
    "Verif.Flt.C108_divide",
    "Verif.Flt.C108_buchberger",
    "Verif.Flt.C108_elimination",
    "Verif.Flt.C108_cone"
   ],
   "note": "Stated through a checked field over f64 that panics when a result is rounded; the plain f64 run returns the same."
  },
  {
   "property": "C109",
   "status": "proved",
   "theorems": [
    "Verif.Flt.C109_arith",
    "Verif.Flt.C109_poly",
    "Verif.Flt.C109_mat",
    "Verif.Flt.C109_dot"
   ],
   "note": ""
  },
  {
   "property": "C110",
   "status": "proved",
   "theorems": [
    "Verif.C110_inverse",
    "Verif.C110_solve"
   ],
   "note": "Overflow panics aside."
  },
  {
   "property": "C111",
   "status": "proved",
   "theorems": [
    "Verif.C111_det"
   ],
   "note": "Overflow panics aside."
  },
  {
   "property": "C112",
   "status": "proved",
   "theorems": [
    "Verif.C112_kernel_form"
   ],
   "note": "Overflow panics aside."
  },
  {
   "property": "C113",
   "status": "proved",
   "theorems": [
    "Verif.C113_range_form"
   ],
   "note": "Overflow panics aside."
  },
  {
   "property": "C114",
   "status": "proved",
   "theorems": [
    "Verif.C114_cone_facets"
   ],
   "note": ""
  },
  {
   "property": "C115",
   "status": "proved",
   "theorems": [
    "Verif.C115_halfspaces"
   ],
   "note": "Uses Farkas' lemma and the fundamental theorem of linear inequalities, proved in Proofs/Farkas."
  },
  {
   "property": "C116",
   "status": "proved",
   "theorems": [
    "Verif.Rational.C116_arith",
    "Verif.Rational.C116_poly",
    "Verif.Rational.C116_mat",
    "Verif.Rational.C116_dot"
   ],
   "note": ""
  },
  {
   "property": "C117",
   "status": "proved",
   "theorems": [
    "Verif.C117_out_of_range",
    "Verif.C117_equal",
    "Verif.C117_row_panics",
    "Verif.C117_no_columns",
    "Verif.C117_replace_row_same",
    "Verif.C117_permutation_from_vec"
   ],
   "note": ""
  },
  {
   "property": "C118",
   "status": "proved",
   "theorems": [
    "Verif.C118_col_iter_mut",
    "Verif.C118_square"
   ],
   "note": ""
  },
  {
   "property": "C119",
   "status": "proved",
   "theorems": [
    "Verif.C119_mat_iterator",
    "Verif.C119_total"
   ],
   "note": ""
  },
  {
   "property": "C120",
   "status": "proved",
   "theorems": [
    "Verif.C120_determinate",
    "Verif.C120_unique"
   ],
   "note": "Overflow panics aside."
  },
  {
   "property": "C121",
   "status": "proved",
   "theorems": [
    "Verif.C121_quotients_descending",
    "Verif.C121_representation_independent"
   ],
   "note": ""
  },
  {
   "property": "C122",
   "status": "proved",
   "theorems": [
    "Verif.C122_divide_linear",
    "Verif.C122_multiple"
   ],
   "note": "Overflow panics aside."
  },
  {
   "property": "C123",
   "status": "proved",
   "theorems": [
    "Verif.C123_add",
    "Verif.C123_neg",
    "Verif.C123_sub",
    "Verif.C123_mul_term",
    "Verif.C123_mul"
   ],
   "note": "No law of the coefficient type is used."
  },
  {
   "property": "C124",
   "status": "proved",
   "theorems": [
    "Verif.C124_extend",
    "Verif.C124_minimize",
    "Verif.C125_algorithm"
   ],
   "note": "The three phases are private functions; C125_algorithm puts them together."
  },
  {
   "property": "C125",
   "status": "proved",
   "theorems": [
    "Verif.C125_reduce",
    "Verif.C125_algorithm"
   ],
   "note": ""
  },
  {
   "property": "C126",
   "status": "proved",
   "theorems": [
    "Verif.C126_facets",
    "Verif.C126_order",
    "Verif.C126_fields",
    "Verif.C126_returns",
    "Verif.C126_float"
   ],
   "note": "No law of the coefficient type is used."
  },
  {
   "property": "C127",
   "status": "proved",
   "theorems": [
    "Verif.C127_float_text",
    "Verif.C127_float_injective"
   ],
   "note": "The text of an f64 is produced by the standard library; its algorithm is modelled."
  },
  {
   "property": "C128",
   "status": "proved",
   "theorems": [
    "Verif.C128_display_f64",
    "Verif.C128_signs",
    "Verif.C128_zero"
   ],
   "note": ""
  },
  {
   "property": "C129",
   "status": "proved",
   "theorems": [
    "Verif.Flt.C129_add",
    "Verif.Flt.C129_sub",
    "Verif.Flt.C129_mul",
    "Verif.Flt.C129_div",
    "Verif.Flt.C129_finite"
   ],
   "note": ""
  },
  {
   "property": "C130",
   "status": "proved",
   "theorems": [
    "Verif.Flt.C130_dot",
    "Verif.Flt.C130_dot_finite",
    "Verif.Flt.C130_frobenius",
    "Verif.Flt.C130_mul"
   ],
   "note": ""
  },
  {
   "property": "C131",
   "status": "proved",
   "theorems": [
    "Verif.Flt.C131_lu"
   ],
   "note": ""
  },
  {
   "property": "C132",
   "status": "proved",
   "theorems": [
    "Verif.Flt.C132_add",
    "Verif.Flt.C132_sub",
    "Verif.Flt.C132_mul"
   ],
   "note": ""
  },
  {
   "property": "C133",
   "status": "proved",
   "theorems": [
    "Verif.C133_radical",
    "Verif.C133_vanishes"
   ],
   "note": ""
  },
  {
   "property": "C134",
   "status": "proved",
   "theorems": [
    "Verif.C134_saturation"
   ],
   "note": ""
  },
  {
   "property": "C135",
   "status": "proved",
   "theorems": [
    "Verif.C135_intersection",
    "Verif.C135_common_multiples"
   ],
   "note": ""
  },
  {
   "property": "C136",
   "status": "proved",
   "theorems": [
    "Verif.C136_divide_one"
   ],
   "note": ""
  },
  {
   "property": "C137",
   "status": "proved",
   "theorems": [
    "Verif.C137_quotient"
   ],
   "note": ""
  },
  {
   "property": "C138",
   "status": "proved",
   "theorems": [
    "Verif.Flt.C138_row_echelon",
    "Verif.Flt.C138_residual"
   ],
   "note": ""
  },
  {
   "property": "C139",
   "status": "proved",
   "theorems": [
    "Verif.Flt.C139_to_rref"
   ],
   "note": ""
  },
  {
   "property": "C140",
   "status": "proved",
   "theorems": [
    "Verif.C140_homogeneous",
    "Verif.C140_terms",
    "Verif.C140_remainder"
   ],
   "note": ""
  },
  {
   "property": "C141",
   "status": "proved",
   "theorems": [
    "Verif.C141_solutions"
   ],
   "note": ""
  },
  {
   "property": "C142",
   "status": "proved",
   "theorems": [
    "Verif.C142_affine",
    "Verif.C142_homogeneous"
   ],
   "note": ""
  },
  {
   "property": "C143",
   "status": "proved",
   "theorems": [
    "Verif.C143_relations",
    "Verif.C143_independent"
   ],
   "note": ""
  },
  {
   "property": "C144",
   "status": "proved",
   "theorems": [
    "Verif.C144_subalgebra"
   ],
   "note": ""
  },
  {
   "property": "C145",
   "status": "proved",
   "theorems": [
    "Verif.C145_linear"
   ],
   "note": "OrdKind.varsDescend shows the hypothesis on the order for Lex, GrLex and GRevLex"
  },
  {
   "property": "C146",
   "status": "proved",
   "theorems": [
    "Verif.C146_inclusion",
    "Verif.C146_equality"
   ],
   "note": ""
  },
  {
   "property": "C147",
   "status": "proved",
   "theorems": [
    "Verif.C147_criterion",
    "Verif.C147_leading"
   ],
   "note": ""
  },
  {
   "property": "C148",
   "status": "partial",
   "theorems": [
    "Verif.C148_rational",
    "Verif.C148_exact",
    "Verif.Flt.C148_float_partial",
    "Verif.Flt.C148_refuted"
   ],
   "note": "False as stated: over f32/f64 a term with coefficient NaN is not == to itself although Eq is implemented"
  },
  {
   "property": "C149",
   "status": "partial",
   "theorems": [
    "Verif.C149_exact",
    "Verif.C149_rational",
    "Verif.Flt.C149_float_partial",
    "Verif.Flt.C149_epsilon",
    "Verif.C149_refuted"
   ],
   "note": "False as stated: [1/2] + [1/2] is [4/4], which is not == to the identity matrix"
  },
  {
   "property": "C150",
   "status": "proved",
   "theorems": [
    "Verif.C150_row_echelon",
    "Verif.C150_rref",
    "Verif.C150_lu",
    "Verif.C150_idempotent",
    "Verif.C150_row_echelon_converse"
   ],
   "note": ""
  },
  {
   "property": "C151",
   "status": "proved",
   "theorems": [
    "Verif.Rational.C151_positive",
    "Verif.Rational.C151_returns",
    "Verif.Rational.C151_overflow"
   ],
   "note": ""
  },
  {
   "property": "C152",
   "status": "proved",
   "theorems": [
    "Verif.C152_finite",
    "Verif.C152_triangular"
   ],
   "note": ""
  },
  {
   "property": "C153",
   "status": "proved",
   "theorems": [
    "Verif.C153_extension",
    "Verif.C153_projection"
   ],
   "note": ""
  },
  {
   "property": "C154",
   "status": "proved",
   "theorems": [
    "Verif.C154_radical"
   ],
   "note": ""
  },
  {
   "property": "C155",
   "status": "partial",
   "theorems": [
    "Verif.C155_divide_partial",
    "Verif.C155_buchberger_partial",
    "Verif.C155_graded_partial",
    "Verif.C155_refuted"
   ],
   "note": "False as stated: dividing x y^255 by x - y and 1 does not end, because y^256 wraps to a multidegree [0, 0] that the constant divisor never removes. What holds: where it does not end, the build with overflow checks panics"
  },
  {
   "property": "C156",
   "status": "partial",
   "theorems": [
    "Verif.Flt.C156_partial",
    "Verif.Flt.C156_refuted"
   ],
   "note": "False as stated: on x^2 + tiny x and 4 x the algorithm and the criterion do not end, for both formats and all orders. What holds: where the algorithm does not end, some operation rounds; by C230 some operation even overflows or underflows"
  },
  {
   "property": "C157",
   "status": "proved",
   "theorems": [
    "Verif.MDeg.add_mod",
    "Verif.C157_add",
    "Verif.C157_mul",
    "Verif.C157_divide",
    "Verif.C157_extend"
   ],
   "note": ""
  },
  {
   "property": "C158",
   "status": "proved",
   "theorems": [
    "Verif.Integer.C158_integer",
    "Verif.Rational.C158_linear",
    "Verif.Rational.C158_new",
    "Verif.Rational.C158_mul"
   ],
   "note": ""
  },
  {
   "property": "C159",
   "status": "partial",
   "theorems": [
    "Verif.Rational.C159_partial",
    "Verif.Rational.C159_refuted"
   ],
   "note": "False as stated: 1/2^32 + 1/2^32 is 2^33/0, and the product of the same numbers panics. What holds: operands below 2^31 give exact, well-formed results in both builds"
  },
  {
   "property": "C160",
   "status": "proved",
   "theorems": [
    "Verif.C160_description",
    "Verif.C160_total_order",
    "Verif.C160_not_multiplicative"
   ],
   "note": ""
  },
  {
   "property": "C161",
   "status": "proved",
   "theorems": [
    "Verif.Rational.C161_row_echelon",
    "Verif.Rational.C161_lu",
    "Verif.Rational.C161_to_rref",
    "Verif.Rational.C161_compute_kernel",
    "Verif.Rational.C161_integers",
    "Verif.Rational.C161_kernel_integers",
    "Verif.Rational.C161_limit"
   ],
   "note": ""
  },
  {
   "property": "C162",
   "status": "proved",
   "theorems": [
    "Verif.C162_one_variable",
    "Verif.C162_divide_one_variable",
    "Verif.C162_criterion",
    "Verif.C162_small",
    "Verif.C162_algorithm"
   ],
   "note": ""
  },
  {
   "property": "C163",
   "status": "proved",
   "theorems": [
    "Verif.C163_num_to_seq",
    "Verif.C163_mat_iterator",
    "Verif.C163_agrees",
    "Verif.C163_repeats"
   ],
   "note": ""
  },
  {
   "property": "C164",
   "status": "proved",
   "theorems": [
    "Verif.C164_divide",
    "Verif.C164_groebner",
    "Verif.C164_elimination",
    "Verif.C164_cone",
    "Verif.Rational.C164_ring",
    "Verif.Rational.C164_integers",
    "Verif.Rational.C164_matrices"
   ],
   "note": ""
  },
  {
   "property": "C165",
   "status": "proved",
   "theorems": [
    "Verif.MDeg.C165_ins",
    "Verif.C165_arithmetic",
    "Verif.C165_routines",
    "Verif.C165_extend",
    "Verif.C165_elimination",
    "Verif.C165_cone"
   ],
   "note": ""
  },
  {
   "property": "C166",
   "status": "proved",
   "theorems": [
    "Verif.C166_kernel",
    "Verif.C166_cone",
    "Verif.C166_permuted",
    "Verif.C166_first"
   ],
   "note": ""
  },
  {
   "property": "C167",
   "status": "proved",
   "theorems": [
    "Verif.C167_binomial",
    "Verif.C167_two_terms",
    "Verif.C167_remainder",
    "Verif.C167_monomial",
    "Verif.C167_filter"
   ],
   "note": ""
  },
  {
   "property": "C168",
   "status": "proved",
   "theorems": [
    "Verif.C168_word",
    "Verif.C168_decide"
   ],
   "note": ""
  },
  {
   "property": "C169",
   "status": "proved",
   "theorems": [
    "Verif.C169_size",
    "Verif.C169_remainder"
   ],
   "note": ""
  },
  {
   "property": "C170",
   "status": "proved",
   "theorems": [
    "Verif.C170_terms",
    "Verif.C170_addTerm",
    "Verif.C170_add",
    "Verif.C170_neg",
    "Verif.C170_sub",
    "Verif.C170_mulTerm",
    "Verif.C170_coef",
    "Verif.C170_mul",
    "Verif.C170_eval",
    "Verif.C170_normalise",
    "Verif.C170_divide"
   ],
   "note": ""
  },
  {
   "property": "C171",
   "status": "proved",
   "theorems": [
    "Verif.C171_zero_lead",
    "Verif.C171_repeated",
    "Verif.C171_endless",
    "Verif.C171_overflow"
   ],
   "note": ""
  },
  {
   "property": "C172",
   "status": "proved",
   "theorems": [
    "Verif.Flt.C172_nan",
    "Verif.Flt.C172_infinite",
    "Verif.Flt.C172_comm",
    "Verif.Flt.C172_sign",
    "Verif.Flt.C172_zero"
   ],
   "note": ""
  },
  {
   "property": "C173",
   "status": "proved",
   "theorems": [
    "Verif.C173_first_nonzero",
    "Verif.C173_rank",
    "Verif.C173_kernel",
    "Verif.C173_range",
    "Verif.C173_float"
   ],
   "note": ""
  },
  {
   "property": "C174",
   "status": "proved",
   "theorems": [
    "Verif.C174_numbers",
    "Verif.C174_mdeg",
    "Verif.C174_poly",
    "Verif.C174_min",
    "Verif.C174_debug"
   ],
   "note": "C174_min is the witness for i64::MIN."
  },
  {
   "property": "C175",
   "status": "proved",
   "theorems": [
    "Verif.C175_try_reduce",
    "Verif.C175_extend",
    "Verif.C175_minimize",
    "Verif.C175_reduce",
    "Verif.C175_algorithm",
    "Verif.C175_refuted"
   ],
   "note": "C175_refuted is the witness that the ideal can become smaller."
  },
  {
   "property": "C176",
   "status": "proved",
   "theorems": [
    "Verif.C176_float",
    "Verif.C176_poly"
   ],
   "note": ""
  },
  {
   "property": "C177",
   "status": "proved",
   "theorems": [
    "Verif.C177_independent",
    "Verif.C177_lex"
   ],
   "note": ""
  },
  {
   "property": "C178",
   "status": "proved",
   "theorems": [
    "Verif.C178_eigenvalues",
    "Verif.C178_ring"
   ],
   "note": ""
  },
  {
   "property": "C179",
   "status": "proved",
   "theorems": [
    "Verif.Rational.C179_cone",
    "Verif.Rational.C179_integers",
    "Verif.Rational.C179_limit"
   ],
   "note": ""
  },
  {
   "property": "C180",
   "status": "proved",
   "theorems": [
    "Verif.C180_dual",
    "Verif.C180_bidual",
    "Verif.C180_pointed"
   ],
   "note": ""
  },
  {
   "property": "C181",
   "status": "proved",
   "theorems": [
    "Verif.C181_syzygies",
    "Verif.C181_accepted"
   ],
   "note": ""
  },
  {
   "property": "C182",
   "status": "proved",
   "theorems": [
    "Verif.C182_read",
    "Verif.C182_mul",
    "Verif.C182_rows",
    "Verif.C182_elimination",
    "Verif.C182_zip",
    "Verif.C182_short"
   ],
   "note": ""
  },
  {
   "property": "C183",
   "status": "proved",
   "theorems": [
    "Verif.C183_arith",
    "Verif.C183_divide",
    "Verif.C183_groebner",
    "Verif.C183_divide_variables",
    "Verif.C183_variables"
   ],
   "note": ""
  },
  {
   "property": "C184",
   "status": "proved",
   "theorems": [
    "Verif.C184_disjoint"
   ],
   "note": ""
  },
  {
   "property": "C185",
   "status": "proved",
   "theorems": [
    "Verif.C185_groebner",
    "Verif.C185_divide"
   ],
   "note": ""
  },
  {
   "property": "C186",
   "status": "proved",
   "theorems": [
    "Verif.Rational.C186_divide",
    "Verif.Rational.C186_eval",
    "Verif.Flt.C186_divide"
   ],
   "note": ""
  },
  {
   "property": "C187",
   "status": "proved",
   "theorems": [
    "Verif.Rational.C187_divide",
    "Verif.Rational.C187_total",
    "Verif.Rational.C187_buchberger",
    "Verif.Flt.C187_divide",
    "Verif.Flt.C187_buchberger"
   ],
   "note": ""
  },
  {
   "property": "C188",
   "status": "proved",
   "theorems": [
    "Verif.C188_integer",
    "Verif.C188_rational",
    "Verif.C188_poly",
    "Verif.C188_computer",
    "Verif.C188_mat",
    "Verif.C188_elimination",
    "Verif.C188_cone",
    "Verif.C188_display",
    "Verif.Flt.C188_poly",
    "Verif.Flt.C188_mat"
   ],
   "note": ""
  },
  {
   "property": "C189",
   "status": "proved",
   "theorems": [
    "Verif.Flt.C189_poly",
    "Verif.Flt.C189_mat",
    "Verif.Flt.C189_divide",
    "Verif.Flt.C189_buchberger",
    "Verif.Flt.C189_binomials"
   ],
   "note": ""
  },
  {
   "property": "C190",
   "status": "proved",
   "theorems": [
    "Verif.C190_distinct",
    "Verif.C190_count",
    "Verif.C190_attained",
    "Verif.C190_lex"
   ],
   "note": ""
  },
  {
   "property": "C191",
   "status": "proved",
   "theorems": [
    "Verif.C191_surplus",
    "Verif.C191_short",
    "Verif.C191_longer"
   ],
   "note": ""
  },
  {
   "property": "C192",
   "status": "proved",
   "theorems": [
    "Verif.C192_rational",
    "Verif.Flt.C192_float",
    "Verif.C192_add",
    "Verif.C192_mat",
    "Verif.C192_transpose",
    "Verif.C192_brackets",
    "Verif.Flt.C192_factors"
   ],
   "note": ""
  },
  {
   "property": "C193",
   "status": "proved",
   "theorems": [
    "Verif.C193_sort_terms"
   ],
   "note": ""
  },
  {
   "property": "C194",
   "status": "proved",
   "theorems": [
    "Verif.C194_pow",
    "Verif.C194_usize_pow",
    "Verif.C194_gcd",
    "Verif.C194_add_term",
    "Verif.C194_pivot_result",
    "Verif.C194_pivot"
   ],
   "note": ""
  },
  {
   "property": "C195",
   "status": "proved",
   "theorems": [
    "Verif.C195_lu",
    "Verif.C195_form",
    "Verif.C195_kernel",
    "Verif.C195_inverse",
    "Verif.C195_singular",
    "Verif.C195_release"
   ],
   "note": ""
  },
  {
   "property": "C196",
   "status": "partial",
   "theorems": [
    "Verif.Flt.C196_refuted",
    "Verif.Flt.C196_exact_partial"
   ],
   "note": "false as stated: refuted with concrete matrices in f32 and f64; proved where no operation of the run rounds"
  },
  {
   "property": "C197",
   "status": "proved",
   "theorems": [
    "Verif.C197_quotient",
    "Verif.C197_regular"
   ],
   "note": ""
  },
  {
   "property": "C198",
   "status": "proved",
   "theorems": [
    "Verif.MDeg.C198_permute",
    "Verif.C198_arithmetic",
    "Verif.C198_routines",
    "Verif.C198_lex_revLex",
    "Verif.C198_two_variables",
    "Verif.C198_one_variable"
   ],
   "note": ""
  },
  {
   "property": "C199",
   "status": "proved",
   "theorems": [
    "Verif.C199_leading",
    "Verif.C199_sums",
    "Verif.C199_products",
    "Verif.C199_divide",
    "Verif.C199_try_reduce",
    "Verif.C199_criterion",
    "Verif.C199_algorithm"
   ],
   "note": ""
  },
  {
   "property": "C200",
   "status": "partial",
   "theorems": [
    "Verif.Flt.C200_refuted",
    "Verif.C200_overflow",
    "Verif.C200_exact_partial"
   ],
   "note": "false as stated: refuted for f32 and f64 with a concrete polynomial, and for rationals one order of the terms can overflow and another not; proved for exact arithmetic when both computations return"
  },
  {
   "property": "C201",
   "status": "proved",
   "theorems": [
    "Verif.C201_zero",
    "Verif.C201_unused",
    "Verif.C201_rational",
    "Verif.Flt.C201_float",
    "Verif.C201_overflow"
   ],
   "note": ""
  },
  {
   "property": "C202",
   "status": "proved",
   "theorems": [
    "Verif.C202_same_cone",
    "Verif.C202_redundant",
    "Verif.C202_first"
   ],
   "note": ""
  },
  {
   "property": "C203",
   "status": "proved",
   "theorems": [
    "Verif.Flt.C203_float",
    "Verif.Flt.C203_float_swap",
    "Verif.Flt.C203_zero",
    "Verif.Flt.C203_swap",
    "Verif.C203_overflow"
   ],
   "note": ""
  },
  {
   "property": "C204",
   "status": "proved",
   "theorems": [
    "Verif.C204_setLast",
    "Verif.C204_affine",
    "Verif.C204_criterion",
    "Verif.C204_grLex"
   ],
   "note": ""
  },
  {
   "property": "C205",
   "status": "proved",
   "theorems": [
    "Verif.C205_transpose",
    "Verif.C205_orthogonal",
    "Verif.C205_product",
    "Verif.C205_sum",
    "Verif.C205_kernels",
    "Verif.C205_gram"
   ],
   "note": ""
  },
  {
   "property": "C206",
   "status": "proved",
   "theorems": [
    "Verif.C206_halfspaces",
    "Verif.C206_dual",
    "Verif.C206_meet",
    "Verif.C206_run"
   ],
   "note": ""
  },
  {
   "property": "C207",
   "status": "proved",
   "theorems": [
    "Verif.C207_float",
    "Verif.C207_float_injective",
    "Verif.C207_decimal",
    "Verif.C207_exponent",
    "Verif.C207_matrix",
    "Verif.C207_injective",
    "Verif.C207_run"
   ],
   "note": "The text of floats under {:?} is that of the standard library since Rust 1.58, modelled in LinAlg/DisplayF64."
  },
  {
   "property": "C208",
   "status": "proved",
   "theorems": [
    "Verif.C208_mdeg",
    "Verif.C208_rational",
    "Verif.C208_float",
    "Verif.C208_run"
   ],
   "note": "The texts are those of derived Debug without formatter flags (LinAlg/Debug); NaN is one value in the model."
  },
  {
   "property": "C209",
   "status": "proved",
   "theorems": [
    "Verif.C209_divide",
    "Verif.C209_algorithm",
    "Verif.C209_lex_grLex",
    "Verif.C209_bases",
    "Verif.C209_exact",
    "Verif.C209_run"
   ],
   "note": "Equality of runs, including panics and non-termination; Sim means: the same outcome unless the first run panics with the stated overflow."
  },
  {
   "property": "C210",
   "status": "proved",
   "theorems": [
    "Verif.C210_arith",
    "Verif.C210_divide",
    "Verif.C210_groebner",
    "Verif.C210_run"
   ],
   "note": "Near E R: related results, or one of the two runs panics with a panic of the coefficient type (for Rational: i64 overflow)."
  },
  {
   "property": "C211",
   "status": "proved",
   "theorems": [
    "Verif.C211_arith",
    "Verif.C211_divide",
    "Verif.C211_groebner",
    "Verif.C211_run"
   ],
   "note": "Rel R: both return related values, or both panic in the same way, or both run for ever."
  },
  {
   "property": "C212",
   "status": "proved",
   "theorems": [
    "Verif.C212_lu_f64",
    "Verif.C212_row_echelon_f64",
    "Verif.C212_run_f64",
    "Verif.C212_lu",
    "Verif.C212_row_echelon",
    "Verif.C212_run"
   ],
   "note": "MW W n m w M M': both are n x m matrices and the entries in row i and column j are related by W (w i j). to_rref over floats is left out: it may take a rounding error in a row for its first nonzero entry."
  },
  {
   "property": "C213",
   "status": "proved",
   "theorems": [
    "Verif.C213_integers",
    "Verif.C213_ranges",
    "Verif.C213_overflow",
    "Verif.C213_floats"
   ],
   "note": "Prim lists the integer types, with their widths (64 bits for usize and isize) and ranges; Prim.add and Prim.mul are the supertraits' operators, which fail (debug) or wrap around (release) on overflow."
  },
  {
   "property": "C214",
   "status": "proved",
   "theorems": [
    "Verif.C214_expr",
    "Verif.C214_law",
    "Verif.C214_exact",
    "Verif.C214_laws"
   ],
   "note": "MExpr is the type of expressions with their dimensions; run is what the library computes, value the mathematical matrix. C214_laws spells out nine laws for the operators themselves."
  },
  {
   "property": "C215",
   "status": "proved",
   "theorems": [
    "Verif.C215_sum",
    "Verif.C215_product",
    "Verif.C215_power",
    "Verif.C215_run"
   ],
   "note": ""
  },
  {
   "property": "C216",
   "status": "proved",
   "theorems": [
    "Verif.C216_arith",
    "Verif.C216_divide",
    "Verif.C216_groebner",
    "Verif.C216_run",
    "Verif.C216_range"
   ],
   "note": "Flt.ranged is the arithmetic of floats with a panic in place of a result that is out of range; the theorems say that one of the two runs over Flt.ranged ends with this panic, or the two real runs are related."
  },
  {
   "property": "C217",
   "status": "proved",
   "theorems": [
    "Verif.C217_inverse",
    "Verif.C217_unit",
    "Verif.C217_regular",
    "Verif.C217_run"
   ],
   "note": "inverseMod and regularMod are programs calling the modelled API; C217_run inverts x + 1 modulo x^2 - 2."
  },
  {
   "property": "C218",
   "status": "proved",
   "theorems": [
    "Verif.C218_relations",
    "Verif.C218_values",
    "Verif.C218_closure",
    "Verif.C218_subalgebra",
    "Verif.C218_run"
   ],
   "note": "relationsMod and expressMod are programs calling the modelled API; C218_run finds the equation of sqrt 2 + sqrt 3."
  },
  {
   "property": "C219",
   "status": "proved",
   "theorems": [
    "Verif.C219_sum",
    "Verif.C219_product",
    "Verif.C219_intersection",
    "Verif.C219_saturation",
    "Verif.C219_saturation_finite",
    "Verif.C219_include",
    "Verif.C219_same",
    "Verif.C219_run"
   ],
   "note": "idealSum, idealMul, intersect, saturate and sameSolutions are programs calling the modelled API; zeros K k gens is the set of common zeros."
  },
  {
   "property": "C220",
   "status": "proved",
   "theorems": [
    "Verif.C220_points",
    "Verif.C220_interpolation",
    "Verif.C220_image",
    "Verif.C220_run",
    "Verif.C220_run_interpolate"
   ],
   "note": "idealOfPoints and interpolate are programs calling the modelled API."
  },
  {
   "property": "C221",
   "status": "proved",
   "theorems": [
    "Verif.C221_shape",
    "Verif.C221_radical",
    "Verif.C221_run"
   ],
   "note": ""
  },
  {
   "property": "C222",
   "status": "proved",
   "theorems": [
    "Verif.Flt.C222_residual",
    "Verif.Flt.C222_exact",
    "Verif.Flt.C222_kernel"
   ],
   "note": ""
  },
  {
   "property": "C223",
   "status": "proved",
   "theorems": [
    "Verif.C223_count",
    "Verif.C223_leads",
    "Verif.C223_same",
    "Verif.C223_run",
    "Verif.C223_run_differ"
   ],
   "note": ""
  },
  {
   "property": "C224",
   "status": "proved",
   "theorems": [
    "Verif.Flt.C224_above",
    "Verif.Flt.C224_orthogonal",
    "Verif.Flt.C224_lost"
   ],
   "note": ""
  },
  {
   "property": "C225",
   "status": "proved",
   "theorems": [
    "Verif.C225_lu",
    "Verif.C225_iff",
    "Verif.C225_float",
    "Verif.C225_more"
   ],
   "note": ""
  },
  {
   "property": "C226",
   "status": "proved",
   "theorems": [
    "Verif.C226_fibre",
    "Verif.C226_extend",
    "Verif.C226_monic",
    "Verif.C226_run",
    "Verif.C226_needed"
   ],
   "note": ""
  },
  {
   "property": "C227",
   "status": "proved",
   "theorems": [
    "Verif.Flt.C227_residual",
    "Verif.Flt.C227_run"
   ],
   "note": ""
  },
  {
   "property": "C228",
   "status": "proved",
   "theorems": [
    "Verif.Flt.C228_eval",
    "Verif.Flt.C228_accuracy",
    "Verif.Flt.C228_run"
   ],
   "note": ""
  },
  {
   "property": "C229",
   "status": "proved",
   "theorems": [
    "Verif.C229_sorted",
    "Verif.Flt.C229_run"
   ],
   "note": ""
  },
  {
   "property": "C230",
   "status": "proved",
   "theorems": [
    "Verif.Flt.C230_divide",
    "Verif.Flt.C230_remainder",
    "Verif.Flt.C230_buchberger",
    "Verif.Flt.C230_run",
    "Verif.Flt.C230_sharp"
   ],
   "note": ""
  },
  {
   "property": "C231",
   "status": "proved",
   "theorems": [
    "Verif.Flt.C231_lu",
    "Verif.Flt.C231_row_echelon",
    "Verif.Flt.C231_moderate"
   ],
   "note": ""
  },
  {
   "property": "C232",
   "status": "proved",
   "theorems": [
    "Verif.Flt.C232_powi",
    "Verif.Flt.C232_powi_exact",
    "Verif.Flt.C232_eval",
    "Verif.Flt.C232_exact",
    "Verif.Flt.C232_run"
   ],
   "note": ""
  },
  {
   "property": "C233",
   "status": "partial",
   "theorems": [
    "Verif.C233_lu_partial",
    "Verif.C233_row_echelon_partial",
    "Verif.C233_rank_partial",
    "Verif.C233_refuted",
    "Verif.C233_kernel",
    "Verif.C233_run"
   ],
   "note": "false as stated: `EPSILON` is an absolute threshold, and C233_refuted gives a matrix of rank 0 with a multiple of rank 1 (C233_kernel: a vector returned for the kernel that is not in it); proved unless a result leaves the range or a comparison with `EPSILON` is so close that the factor could change it"
  },
  {
   "property": "C234",
   "status": "proved",
   "theorems": [
    "Verif.C234_rational",
    "Verif.C234_float",
    "Verif.C234_display",
    "Verif.C234_display_injective",
    "Verif.C234_entries",
    "Verif.C234_number_lines",
    "Verif.C234_mdeg_lines",
    "Verif.C234_mat_lines",
    "Verif.C234_float_line",
    "Verif.C234_run"
   ],
   "note": ""
  },
  {
   "property": "C235",
   "status": "proved",
   "theorems": [
    "Verif.C235_closure",
    "Verif.C235_finite",
    "Verif.C235_dense",
    "Verif.C235_image",
    "Verif.C235_run",
    "Verif.C235_sample"
   ],
   "note": ""
  },
  {
   "property": "C236",
   "status": "proved",
   "theorems": [
    "Verif.C236_principal",
    "Verif.C236_lcm",
    "Verif.C236_gcd",
    "Verif.C236_coprime",
    "Verif.C236_run"
   ],
   "note": ""
  },
  {
   "property": "C237",
   "status": "proved",
   "theorems": [
    "Verif.C237_inverse",
    "Verif.C237_run"
   ],
   "note": ""
  },
  {
   "property": "C238",
   "status": "proved",
   "theorems": [
    "Verif.C238_quotient",
    "Verif.C238_saturation",
    "Verif.C238_difference",
    "Verif.C238_run"
   ],
   "note": ""
  },
  {
   "property": "C239",
   "status": "proved",
   "theorems": [
    "Verif.C239_equations",
    "Verif.C239_intersection",
    "Verif.C239_sum",
    "Verif.C239_dimension",
    "Verif.C239_contained",
    "Verif.C239_run",
    "Verif.C239_sample"
   ],
   "note": ""
  },
  {
   "property": "C240",
   "status": "proved",
   "theorems": [
    "Verif.C240_least_squares",
    "Verif.C240_run"
   ],
   "note": ""
  },
  {
   "property": "C241",
   "status": "proved",
   "theorems": [
    "Verif.C241_inverse",
    "Verif.C241_transpose",
    "Verif.C241_product",
    "Verif.C241_left",
    "Verif.C241_right",
    "Verif.C241_run"
   ],
   "note": ""
  },
  {
   "property": "C242",
   "status": "proved",
   "theorems": [
    "Verif.C242_membership",
    "Verif.C242_zeros",
    "Verif.C242_sample",
    "Verif.C242_run"
   ],
   "note": ""
  }
 ]
}