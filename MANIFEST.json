{
 "claims": [
  {
   "property": "C01",
   "status": "proved",
   "theorems": [
    "Verif.C01_history_refines_map",
    "Verif.C01_calls_raise_as_specified",
    "Verif.C01_last_store_wins"
   ],
   "note": ""
  },
  {
   "property": "C02",
   "status": "proved",
   "theorems": [
    "Verif.C02_append_never_overwrites",
    "Verif.C02_fractional_append_overwrites"
   ],
   "note": "Integer indices: proved. The fractional-index overwrite named in the property is exhibited."
  },
  {
   "property": "C03",
   "status": "proved",
   "theorems": [
    "Verif.C03_reachable_wellFormed",
    "Verif.C03_reachable_iff",
    "Verif.C03_read_wellFormed"
   ],
   "note": "Induction over all programs built from the public container operations (Spec.Reach)."
  },
  {
   "property": "C04",
   "status": "proved",
   "theorems": [
    "Verif.C04_failed_store_changes_nothing"
   ],
   "note": ""
  },
  {
   "property": "C05",
   "status": "proved",
   "theorems": [
    "Verif.C05_contents_sorted",
    "Verif.C05_contents_history_independent",
    "Verif.C05_insertion_order_irrelevant"
   ],
   "note": ""
  },
  {
   "property": "C06",
   "status": "proved",
   "theorems": [
    "Verif.C06_asArrays_raises_iff",
    "Verif.C06_asArrays_window",
    "Verif.C06_asArrays_default_count"
   ],
   "note": ""
  },
  {
   "property": "C07",
   "status": "proved",
   "theorems": [
    "Verif.C07_fromArrays_asArrays",
    "Verif.C07_fromArrays_table",
    "Verif.C07_fromArrays_refuses_duplicates",
    "Verif.C07_asArrays_fromArrays",
    "Verif.C07_fromArrays_refuses_lengths",
    "Verif.C07_fromArrays_orders_unchecked"
   ],
   "note": ""
  },
  {
   "property": "C08",
   "status": "proved",
   "theorems": [
    "Verif.C08_add_pointwise",
    "Verif.C08_add_comm",
    "Verif.C08_add_assoc",
    "Verif.C08_add_empty",
    "Verif.C08_add_shape_mismatch",
    "Verif.C08_nonzero_default_counterexample"
   ],
   "note": "The necessity of the zero-default hypothesis is shown by a counterexample."
  },
  {
   "property": "C09",
   "status": "proved",
   "theorems": [
    "Verif.C09_sub_pointwise",
    "Verif.C09_add_sub_cancel",
    "Verif.C09_sub_self",
    "Verif.C09_sub_antisymm"
   ],
   "note": ""
  },
  {
   "property": "C10",
   "status": "proved",
   "theorems": [
    "Verif.C10_mulScalar_pointwise",
    "Verif.C10_mulArray_pointwise",
    "Verif.C10_mul_one",
    "Verif.C10_mul_mul",
    "Verif.C10_mul_add",
    "Verif.C10_div_undoes_mul"
   ],
   "note": ""
  },
  {
   "property": "C11",
   "status": "proved",
   "theorems": [
    "Verif.C11_mulCoefs_pointwise",
    "Verif.C11_mulCoefs_comm",
    "Verif.C11_divCoefs_pointwise",
    "Verif.C11_mul_div_cancel"
   ],
   "note": ""
  },
  {
   "property": "C12",
   "status": "proved",
   "theorems": [
    "Verif.C12_scale_pointwise",
    "Verif.C12_scale_inverse",
    "Verif.C12_scale_compose"
   ],
   "note": ""
  },
  {
   "property": "C13",
   "status": "proved",
   "theorems": [
    "Verif.C13_truncated",
    "Verif.C13_truncated_truncated",
    "Verif.C13_truncated_noop"
   ],
   "note": ""
  },
  {
   "property": "C14",
   "status": "proved",
   "theorems": [
    "Verif.C14_hstack_hsplit",
    "Verif.C14_hsplit_hstack",
    "Verif.C14_hsplit_hstack_single",
    "Verif.C14_hsplit_at",
    "Verif.C14_hstack_hsplit_at",
    "Verif.C14_unsorted_positions"
   ],
   "note": ""
  },
  {
   "property": "C15",
   "status": "proved",
   "theorems": [
    "Verif.C15_isolation",
    "Verif.C15_arguments_untouched",
    "Verif.C15_set",
    "Verif.C15_append",
    "Verif.C15_derived",
    "Verif.C15_default_is_copy",
    "Verif.C15_get_is_live",
    "Verif.C15_constructor_aliases",
    "Verif.C15_shared_constructor",
    "Verif.C15_split_overlap"
   ],
   "note": "Storage-level model with views and in-place writes; all disciplined programs. The live arrays handed out by get and the constructor's aliasing are exhibited as theorems."
  },
  {
   "property": "C16",
   "status": "proved",
   "theorems": [
    "Verif.C16_allclose_iff",
    "Verif.C16_allclose_refl",
    "Verif.C16_allclose_empty_raises",
    "Verif.C16_allclose_not_symmetric"
   ],
   "note": "Stated over exact complex numbers (np.isclose on finite values)."
  },
  {
   "property": "C17",
   "status": "proved",
   "theorems": [
    "Verif.C17_reader_total",
    "Verif.C17_reader_raises_iff",
    "Verif.C17_lines_exist"
   ],
   "note": "Text-level reader over the full grammar of python int()/float() tokens (any table of decimal digits); binary64 values."
  },
  {
   "property": "C18",
   "status": "proved",
   "theorems": [
    "Verif.C18_irrelevant_text",
    "Verif.C18_only_records_matter",
    "Verif.C18_records_unique"
   ],
   "note": ""
  },
  {
   "property": "C19",
   "status": "proved",
   "theorems": [
    "Verif.C19_blocks",
    "Verif.C19_components",
    "Verif.C19_nonfinite_imag"
   ],
   "note": ""
  },
  {
   "property": "C20",
   "status": "proved",
   "theorems": [
    "Verif.C20_write_read"
   ],
   "note": "Window order_min..; hypotheses: finite values, at least one column, non-empty window, header lines that are not data (C24)."
  },
  {
   "property": "C21",
   "status": "proved",
   "theorems": [
    "Verif.C21_second_write",
    "Verif.C21_negative_zero_lost",
    "Verif.C21_identical_iff",
    "Verif.C21_values_stable"
   ],
   "note": "Violated by the code for some negative zeros (C21_negative_zero_lost); C21_identical_iff says exactly for which. Numerical stability is proved without restriction."
  },
  {
   "property": "C22",
   "status": "proved",
   "theorems": [
    "Verif.C22_write_raises_iff",
    "Verif.C22_text",
    "Verif.C22_records"
   ],
   "note": ""
  },
  {
   "property": "C23",
   "status": "proved",
   "theorems": [
    "Verif.C23_header_always_one",
    "Verif.C23_header_wrong",
    "Verif.C23_header_count_partial",
    "Verif.C23_header_iff"
   ],
   "note": "Violated by the code (C23_header_always_one, C23_header_wrong); C23_header_iff says exactly when the header is right."
  },
  {
   "property": "C24",
   "status": "proved",
   "theorems": [
    "Verif.C24_header_not_data",
    "Verif.C24_file_name_is_data"
   ],
   "note": "With the file-name proviso named in the property, whose necessity is proved."
  },
  {
   "property": "C25",
   "status": "proved",
   "theorems": [
    "Verif.C25_radial_is_surfaceField",
    "Verif.C25_fold"
   ],
   "note": "Sets of dtype real or complex; together with C25_radial_is_surfaceField, which ties get_radial_field to the textbook sum for all orders."
  },
  {
   "property": "C26",
   "status": "proved",
   "theorems": [
    "Verif.C26_cosines",
    "Verif.C26_sines"
   ],
   "note": ""
  },
  {
   "property": "C27",
   "status": "proved",
   "theorems": [
    "Verif.C27_pfss_zdi_pfss",
    "Verif.C27_zdi_pfss_zdi"
   ],
   "note": "Exact arithmetic; dtype real or complex; any iteration order of the key set."
  },
  {
   "property": "C28",
   "status": "proved",
   "theorems": [
    "Verif.C28_surface"
   ],
   "note": ""
  },
  {
   "property": "C29",
   "status": "proved",
   "theorems": [
    "Verif.C29_three_radii",
    "Verif.C29_other_radii"
   ],
   "note": "Agreement proved for rss = 3 r*; C29_other_radii proves disagreement (dipole) for every other source surface radius, including the default 2.5."
  },
  {
   "property": "C30",
   "status": "proved",
   "theorems": [
    "Verif.C30_surface",
    "Verif.C30_source_surface",
    "Verif.C30_inside",
    "Verif.C30_radii_order",
    "Verif.C30_negative_order"
   ],
   "note": "Non-empty single-column sets with non-negative orders; a negative order is refused by the assert (C30_negative_order)."
  },
  {
   "property": "C31",
   "status": "proved",
   "theorems": [
    "Verif.C31_falloff",
    "Verif.C31_continuous"
   ],
   "note": ""
  },
  {
   "property": "C32",
   "status": "proved",
   "theorems": [
    "Verif.C32_gradient",
    "Verif.C32_laplace"
   ],
   "note": "Gradient and Laplace equation by calculus; the Legendre equation is proved from the Rodrigues form."
  },
  {
   "property": "C33",
   "status": "proved",
   "theorems": [
    "Verif.C33_radial",
    "Verif.C33_azimuth"
   ],
   "note": ""
  },
  {
   "property": "C34",
   "status": "partial",
   "theorems": [
    "Verif.C34_pfss",
    "Verif.C34_zdi_radial",
    "Verif.C34_zdi_tangential_partial",
    "Verif.C34_zdi_tangential",
    "Verif.C34_negative_orders_fail"
   ],
   "note": "PFSS field (all points) and ZDI radial field (all orders, all points): proved. ZDI tangential fields off the poles: proved when each set has no negative orders or orders as high as the other (C34_zdi_tangential, errors included); C34_negative_orders_fail proves that the unrestricted statement is false."
  },
  {
   "property": "C35",
   "status": "proved",
   "theorems": [
    "Verif.C35_rect_of_spherical",
    "Verif.C35_spherical_of_rect",
    "Verif.C35_ranges",
    "Verif.C35_radius",
    "Verif.C35_origin"
   ],
   "note": "Over exact reals; arctan2 is Complex.arg."
  },
  {
   "property": "C36",
   "status": "proved",
   "theorems": [
    "Verif.C36_transpose",
    "Verif.C36_inverse",
    "Verif.C36_det",
    "Verif.C36_first_column",
    "Verif.C36_other_columns"
   ],
   "note": ""
  },
  {
   "property": "C37",
   "status": "proved",
   "theorems": [
    "Verif.C37_norm",
    "Verif.C37_radial_component",
    "Verif.C37_pfss_cartesian",
    "Verif.C37_cartesian",
    "Verif.C37_cartesianToroidal_raises"
   ],
   "note": "evaluate_cartesian and get_cartesian_field; the toroidal variant is shown to raise always."
  },
  {
   "property": "C38",
   "status": "proved",
   "theorems": [
    "Verif.C38_radial",
    "Verif.C38_polar",
    "Verif.C38_azimuthal",
    "Verif.C38_projections",
    "Verif.C38_parts_keep"
   ],
   "note": "'m itself is unchanged' is immediate in the value model (copies are values)."
  },
  {
   "property": "C39",
   "status": "proved",
   "theorems": [
    "Verif.C39_poloidal_gradient",
    "Verif.C39_toroidal_curl"
   ],
   "note": ""
  },
  {
   "property": "C40",
   "status": "proved",
   "theorems": [
    "Verif.C40_methods_agree",
    "Verif.C40_negative_orders_differ"
   ],
   "note": ""
  },
  {
   "property": "C41",
   "status": "proved",
   "theorems": [
    "Verif.C41_real",
    "Verif.C41_value",
    "Verif.C41_nonneg",
    "Verif.C41_zero_iff",
    "Verif.C41_scaling",
    "Verif.C41_split",
    "Verif.C41_sums_nonneg",
    "Verif.C41_fractions",
    "Verif.C41_fractions_sum",
    "Verif.C41_shares",
    "Verif.C41_shares_degree"
   ],
   "note": "Exact complex arithmetic; fractions with a zero denominator are nan in numpy and excluded."
  },
  {
   "property": "C42",
   "status": "proved",
   "theorems": [
    "Verif.C42_energy",
    "Verif.C42_last",
    "Verif.C42_dipole_fraction"
   ],
   "note": ""
  },
  {
   "property": "C43",
   "status": "proved",
   "theorems": [
    "Verif.C43_empty",
    "Verif.C43_negative",
    "Verif.C43_matrix"
   ],
   "note": ""
  },
  {
   "property": "C44",
   "status": "proved",
   "theorems": [
    "Verif.C44_restricted",
    "Verif.C44_restricted_idem",
    "Verif.C44_restricted_twice",
    "Verif.C44_dipole",
    "Verif.C44_dipole_drops_negative"
   ],
   "note": "The dropped negative orders are exhibited."
  },
  {
   "property": "C45",
   "status": "proved",
   "theorems": [
    "Verif.C45_values_derivatives",
    "Verif.C45_negative_orders",
    "Verif.C45_negative_order_wrong"
   ],
   "note": "Non-negative orders: proved. The wrong lookup for negative orders is exhibited."
  },
  {
   "property": "C46",
   "status": "proved",
   "theorems": [
    "Verif.C46_shape",
    "Verif.C46_facets",
    "Verif.C46_total",
    "Verif.C46_positive",
    "Verif.C46_full_sphere",
    "Verif.C46_default",
    "Verif.C46_too_few",
    "Verif.C46_mixed"
   ],
   "note": "Exact arithmetic. Mixed constructor arguments are covered by C46_mixed."
  },
  {
   "property": "C47",
   "status": "proved",
   "theorems": [
    "Verif.C47_unit_normals",
    "Verif.C47_cosine",
    "Verif.C47_shape",
    "Verif.C47_length",
    "Verif.C47_one_side"
   ],
   "note": "Angle in euclidean three-space (Mathlib's InnerProductGeometry.angle)."
  },
  {
   "property": "C48",
   "status": "proved",
   "theorems": [
    "Verif.C48_between",
    "Verif.C48_magnitude",
    "Verif.C48_periodic",
    "Verif.C48_invisible",
    "Verif.C48_full_sphere_visible",
    "Verif.C48_linear",
    "Verif.C48_default",
    "Verif.C48_integer_azimuths",
    "Verif.C48_truncation_witness"
   ],
   "note": "Bounds for observers that see a facet (always the case on full-sphere grids with at least 2 x 3 facets: C48_full_sphere_visible). Linearity for non-negative orders (see C34). The truncation for integer azimuths is exhibited."
  },
  {
   "property": "C49",
   "status": "proved",
   "theorems": [
    "Verif.C49_statistics",
    "Verif.C49_assertion_iff",
    "Verif.C49_full_sphere",
    "Verif.C49_description",
    "Verif.C49_partial_grid_fails"
   ],
   "note": "The assertion is characterised exactly (C49_assertion_iff); numerical_description as a whole succeeds on every full-sphere grid for non-negative orders and fails on a half sphere."
  },
  {
   "property": "C50",
   "status": "proved",
   "theorems": [
    "Verif.C50_count",
    "Verif.C50_unit_sphere",
    "Verif.C50_heights",
    "Verif.C50_distinct",
    "Verif.C50_golden_angle",
    "Verif.C50_errors"
   ],
   "note": "Exact arithmetic, for every random offset; numbers of points that are zero or negative raise (C50_errors)."
  },
  {
   "property": "C51",
   "status": "proved",
   "theorems": [
    "Verif.C51_lambert_domain",
    "Verif.C51_both_roots",
    "Verif.C51_branch",
    "Verif.C51_transonic",
    "Verif.C51_increasing"
   ],
   "note": "lambertw is modelled as the real solution of w e^w = x on the branch asked for; existence on the arguments used is proved (C51_lambert_domain)."
  },
  {
   "property": "C52",
   "status": "proved",
   "theorems": [
    "Verif.C52_mass_flux",
    "Verif.C52_sonic_point",
    "Verif.C52_monotone",
    "Verif.C52_integer_radii"
   ],
   "note": "For positive physical parameters and float radii. For integer arrays and a fractional stellar radius the clause about radii inside the star fails (C52_integer_radii)."
  },
  {
   "property": "C53",
   "status": "proved",
   "theorems": [
    "Verif.C53_effect",
    "Verif.C53_unchanged_iff",
    "Verif.C53_overwritten"
   ],
   "note": "The property is violated: C53_overwritten exhibits it, C53_unchanged_iff says exactly when a float array survives, C53_effect gives the complete effect on the caller's arrays."
  },
  {
   "property": "C54",
   "status": "proved",
   "theorems": [
    "Verif.C54_values",
    "Verif.C54_real_raises",
    "Verif.C54_linear",
    "Verif.C54_identity",
    "Verif.C54_compose",
    "Verif.C54_inverse",
    "Verif.C54_power",
    "Verif.C54_default_added"
   ],
   "note": "Wigner_D_element enters as a hypothesis (unitary representation, UnitaryRep); C69_representation shows that the documented Wigner matrices of all unit quaternions satisfy it. Proved for complex sets with zero default; other dtypes raise (C54_real_raises) and a default other than zero is added to every value (C54_default_added)."
  },
  {
   "property": "C55",
   "status": "proved",
   "theorems": [
    "Verif.C55_unitaryRep",
    "Verif.C55_phase",
    "Verif.C55_field"
   ],
   "note": "Wigner matrices of z rotations written out (zRotation). The radial field and the two tangential components that do not use the Legendre table are covered."
  },
  {
   "property": "C56",
   "status": "proved",
   "theorems": [
    "Verif.C56_transparent",
    "Verif.C56_bounded",
    "Verif.C56_other_coordinates",
    "Verif.C56_write_corrupts"
   ],
   "note": "All call sequences, all capacities, sph_harm as a parameter; the arrays live in a heap, so later writes are visible."
  },
  {
   "property": "C57",
   "status": "proved",
   "theorems": [
    "Verif.C57_geometry",
    "Verif.C57_from_image",
    "Verif.C57_size",
    "Verif.C57_default_geometry",
    "Verif.C57_linear",
    "Verif.C57_to_image",
    "Verif.C57_to_image_linear",
    "Verif.C57_adjoint",
    "Verif.C57_positive_lm"
   ],
   "note": "sph_harm is a parameter. Any corner arrays (C57_geometry: every geometry is of this form). Also proved: analysis is the adjoint of synthesis (C57_adjoint)."
  },
  {
   "property": "C58",
   "status": "proved",
   "theorems": [
    "Verif.C58_success",
    "Verif.C58_error",
    "Verif.C58_existing_safe",
    "Verif.C58_input_safe",
    "Verif.C58_same_name",
    "Verif.C58_existing",
    "Verif.C58_alias",
    "Verif.C58_made_name",
    "Verif.C58_made_name_plain",
    "Verif.C58_made_name_ne",
    "Verif.C58_alias_witness",
    "Verif.C58_unencodable_witness"
   ],
   "note": "File system with links, permissions and an encoding. Names are POSIX paths. The clause \"on any error nothing is written\" fails only for names that cannot be encoded (C58_error, C58_unencodable_witness); other names of the input file are not recognised (C58_alias, C58_alias_witness)."
  },
  {
   "property": "C59",
   "status": "proved",
   "theorems": [
    "Verif.C59_no_conversion_wins",
    "Verif.C59_missing",
    "Verif.C59_malformed",
    "Verif.C59_columns",
    "Verif.C59_first_column",
    "Verif.C59_no_conversion",
    "Verif.C59_zdi_to_pfss",
    "Verif.C59_pfss_to_zdi",
    "Verif.C59_negative_orders_witness",
    "Verif.C59_product",
    "Verif.C59_accuracy"
   ],
   "note": "The values of the conversion factors are parameters (any float64, may raise); C59_accuracy gives the error of the output relative to exact factors. Output statements assume finite products and a header line that does not read as data (C24). Negative orders are dropped (C59_negative_orders_witness)."
  },
  {
   "property": "C60",
   "status": "proved",
   "theorems": [
    "Verif.C60_major_values",
    "Verif.C60_major_order",
    "Verif.C60_major_labels",
    "Verif.C60_label_unique",
    "Verif.C60_minor_values",
    "Verif.C60_minor_order",
    "Verif.C60_minor_contains_major",
    "Verif.C60_empty_range"
   ],
   "note": "Values are exact rationals; exponents and steps are integers. C60_empty_range is the disagreement."
  },
  {
   "property": "C61",
   "status": "proved",
   "theorems": [
    "Verif.C61_shift",
    "Verif.C61_not_an_integer",
    "Verif.C61_no_braces",
    "Verif.C61_reversed_braces",
    "Verif.C61_closing_only",
    "Verif.C61_compose",
    "Verif.C61_unit",
    "Verif.C61_major_labels"
   ],
   "note": "For every text and every table of Unicode digits; exponents are parsed as int() does."
  },
  {
   "property": "C62",
   "status": "proved",
   "theorems": [
    "Verif.C62_values",
    "Verif.C62_times",
    "Verif.C62_never_a_partition",
    "Verif.C62_jump_at_start",
    "Verif.C62_jump_inside",
    "Verif.C62_repaired",
    "Verif.C62_empty"
   ],
   "note": "Violated by the code: C62_times gives the exact number of intervals per sample, C62_never_a_partition and C62_jump_inside the violations, C62_repaired shows that the two off-by-one errors are the only faults."
  },
  {
   "property": "C63",
   "status": "proved",
   "theorems": [
    "Verif.C63_partition",
    "Verif.C63_curves",
    "Verif.C63_no_energy",
    "Verif.C63_cumulative_end",
    "Verif.C63_scaled_end",
    "Verif.C63_monotone",
    "Verif.C63_shown_sum",
    "Verif.C63_colour",
    "Verif.C63_colour_nonneg",
    "Verif.C63_colour_order",
    "Verif.C63_colour_witness"
   ],
   "note": "Curves proved in full. The colour range claim is violated below energy 1 (C63_colour_order gives the exact condition). Real arithmetic; drawing not modelled."
  },
  {
   "property": "C64",
   "status": "proved",
   "theorems": [
    "Verif.C64_radial",
    "Verif.C64_total",
    "Verif.C64_strength_defined",
    "Verif.C64_negative_orders_fail"
   ],
   "note": ""
  },
  {
   "property": "C65",
   "status": "proved",
   "theorems": [
    "Verif.C65_copy",
    "Verif.C65_emptyLike",
    "Verif.C65_zerosLike"
   ],
   "note": ""
  },
  {
   "property": "C66",
   "status": "proved",
   "theorems": [
    "Verif.C66_value",
    "Verif.C66_default_area",
    "Verif.C66_linear",
    "Verif.C66_shift",
    "Verif.C66_no_pairs",
    "Verif.C66_pairs",
    "Verif.C66_default_degree",
    "Verif.C66_magnetogram",
    "Verif.C66_default_magnetogram"
   ],
   "note": "Exact arithmetic. Points on the axis are excluded in C66_value (calculate_lpmn divides by sin there). Arrays of equal two-dimensional shape."
  },
  {
   "property": "C67",
   "status": "proved",
   "theorems": [
    "Verif.C67_recovery",
    "Verif.C67_field"
   ],
   "note": "Exact arithmetic. The imaginary part of an order 0 coefficient does not show in the field, so only its real part is recovered; the tangential coefficients of degree 0 come back as 0."
  },
  {
   "property": "C68",
   "status": "proved",
   "theorems": [
    "Verif.C68_roundtrip",
    "Verif.C68_projection"
   ],
   "note": "Exact arithmetic; sph_harm is the orthonormal harmonic with Condon-Shortley phase (scipyY). Coefficients the set does not store tend to 0, whatever the default of the set."
  },
  {
   "property": "C69",
   "status": "proved",
   "theorems": [
    "Verif.C69_representation",
    "Verif.C69_harmonics",
    "Verif.C69_moves",
    "Verif.C69_surface",
    "Verif.C69_turns",
    "Verif.C69_euler",
    "Verif.C69_folded",
    "Verif.C69_extrapolated",
    "Verif.C69_range",
    "Verif.C69_undo",
    "Verif.C69_about_z"
   ],
   "note": "Wigner_D_element and from_euler_angles at their documented formulas, exact arithmetic. Points have colatitudes with nonnegative sine. The statement is about the radial field."
  },
  {
   "property": "C70",
   "status": "proved",
   "theorems": [
    "Verif.C70_extrapolation",
    "Verif.C70_strength",
    "Verif.C70_cartesian"
   ],
   "note": "Points off the polar axis (the components are not defined there). Signs account for the mirrored azimuth of the PFSS convention."
  },
  {
   "property": "C71",
   "status": "proved",
   "theorems": [
    "Verif.C71_zdi"
   ],
   "note": "Three columns; points off the polar axis."
  },
  {
   "property": "C72",
   "status": "proved",
   "theorems": [
    "Verif.C72_scale",
    "Verif.C72_defined",
    "Verif.C72_no_clipping",
    "Verif.C72_abs_max_exceeded",
    "Verif.C72_shared",
    "Verif.C72_shared_iff",
    "Verif.C72_zdi_defined",
    "Verif.C72_axial_bar",
    "Verif.C72_terms",
    "Verif.C72_bar_witness",
    "Verif.C72_pfss_defined",
    "Verif.C72_pfss_bar"
   ],
   "note": "Drawing is not modelled; three rules of matplotlib's colour limits are used (stated in Model.Maps). The shared scale is proved exactly where it holds; elsewhere the negation is proved."
  },
  {
   "property": "C73",
   "status": "proved",
   "theorems": [
    "Verif.C73_extrema",
    "Verif.C73_empty",
    "Verif.C73_field"
   ],
   "note": "Numbers of the labels before formatting; for the formatting see C74."
  },
  {
   "property": "C74",
   "status": "proved",
   "theorems": [
    "Verif.C74_label",
    "Verif.C74_order",
    "Verif.C74_special"
   ],
   "note": "The rounding of printf %g is modelled as round-half-even on the exact value."
  },
  {
   "property": "C75",
   "status": "partial",
   "theorems": [
    "Verif.C75_shares_partial",
    "Verif.C75_normalized",
    "Verif.C75_defined",
    "Verif.C75_witness",
    "Verif.C75_toroidal_only"
   ],
   "note": "The code violates the property with matplotlib >= 3.5 (C75_normalized, C75_witness) and for purely toroidal magnetograms (C75_toroidal_only); without normalisation the shares are proved, and C75_defined characterises when a summary can be drawn."
  },
  {
   "property": "C76",
   "status": "partial",
   "theorems": [
    "Verif.C76_zdi",
    "Verif.C76_pfss",
    "Verif.C76_unknown",
    "Verif.C76_disk",
    "Verif.C76_saved",
    "Verif.C76_exact",
    "Verif.C76_overwrites",
    "Verif.C76_star",
    "Verif.C76_title",
    "Verif.C76_symbols_partial",
    "Verif.C76_symbols_swapped",
    "Verif.C76_energies",
    "Verif.C76_mirrored"
   ],
   "note": "The code violates the part about the symbols (C76_symbols_swapped) and, for --type pfss, shows the mirrored field (C76_pfss, C76_mirrored). Everything else is proved; numbers are exact after reading."
  },
  {
   "property": "C77",
   "status": "proved",
   "theorems": [
    "Verif.C77_profile_iff",
    "Verif.C77_profile",
    "Verif.C77_figure_iff",
    "Verif.C77_figure",
    "Verif.C77_one",
    "Verif.C77_one_library",
    "Verif.C77_unknown",
    "Verif.C77_disk",
    "Verif.C77_table",
    "Verif.C77_matrix"
   ],
   "note": "Violated by the code for a single parameter (C77_one); for two or more everything is proved, and the library function is proved for any number."
  },
  {
   "property": "C78",
   "status": "proved",
   "theorems": [
    "Verif.C78_stack_iff",
    "Verif.C78_stack",
    "Verif.C78_limits",
    "Verif.C78_same",
    "Verif.C78_single",
    "Verif.C78_empty"
   ],
   "note": "Violated by the code for a single profile (C78_single); everything else is proved, with the automatic limits as a parameter."
  },
  {
   "property": "C79",
   "status": "partial",
   "theorems": [
    "Verif.C79_iff",
    "Verif.C79_panels_partial",
    "Verif.C79_range",
    "Verif.C79_cut"
   ],
   "note": "Every sample exactly once is false (C62); what is drawn instead is stated with multiplicities."
  },
  {
   "property": "C80",
   "status": "proved",
   "theorems": [
    "Verif.C80_plane",
    "Verif.C80_normals",
    "Verif.C80_no_centre",
    "Verif.C80_iff",
    "Verif.C80_shows",
    "Verif.C80_scale",
    "Verif.C80_only_x",
    "Verif.C80_label_wrong",
    "Verif.C80_inside",
    "Verif.C80_unknown"
   ],
   "note": "Violated by the code for the normals y and z and by the label of the abscissa; both stated exactly (C80_only_x, C80_label_wrong). The conditions of streamplot on its grid are part of the model."
  },
  {
   "property": "C81",
   "status": "proved",
   "theorems": [
    "Verif.C81_iff",
    "Verif.C81_full",
    "Verif.C81_shows",
    "Verif.C81_ticks",
    "Verif.C81_scale",
    "Verif.C81_width",
    "Verif.C81_legend",
    "Verif.C81_direction"
   ],
   "note": "Violated by the code in the legend and in the direction of the lines; both stated exactly (C81_legend, C81_direction). MaxNLocator is a parameter."
  },
  {
   "property": "C82",
   "status": "proved",
   "theorems": [
    "Verif.C82_converges",
    "Verif.C82_iff",
    "Verif.C82_exact",
    "Verif.C82_interior",
    "Verif.C82_cartesian",
    "Verif.C82_pole",
    "Verif.C82_stuck",
    "Verif.C82_roll"
   ],
   "note": "Violated by the code next to the poles, stated exactly (C82_pole, C82_stuck, C82_roll); convergence elsewhere is proved for all magnetograms and grids."
  },
  {
   "property": "C83",
   "status": "proved",
   "theorems": [
    "Verif.C83_value",
    "Verif.C83_mean",
    "Verif.C83_zero",
    "Verif.C83_order_one",
    "Verif.C83_all"
   ],
   "note": "Violated by the code at the poles and within one step of the south pole (C83_zero, C83_order_one); the mean value statement holds everywhere else."
  },
  {
   "property": "C84",
   "status": "proved",
   "theorems": [
    "Verif.C84_values",
    "Verif.C84_radial",
    "Verif.C84_beta",
    "Verif.C84_extend",
    "Verif.C84_monopole"
   ],
   "note": "Violated by the code for degree 0 with beta other than 0 (C84_monopole; for positive beta numpy stores nan, which the model represents as an exception)."
  },
  {
   "property": "C85",
   "status": "proved",
   "theorems": [
    "Verif.C85_iff",
    "Verif.C85_full",
    "Verif.C85_shows",
    "Verif.C85_ticks",
    "Verif.C85_width",
    "Verif.C85_legend"
   ],
   "note": "Violated by the code in the legend (C85_legend), in the widths without a tangential field (C85_width) and in the direction of the lines (C81_direction)."
  },
  {
   "property": "C86",
   "status": "proved",
   "theorems": [
    "Verif.C86_defined",
    "Verif.C86_ticks",
    "Verif.C86_order",
    "Verif.C86_inside",
    "Verif.C86_vertical",
    "Verif.C86_value_axis"
   ],
   "note": "Violated by the code for limits that exclude some negative power (C86_inside), for axis='y' (C86_vertical) and for colour bars with an axis in units of the value (C86_value_axis); exactly characterised."
  },
  {
   "property": "C87",
   "status": "proved",
   "theorems": [
    "Verif.C87_defined",
    "Verif.C87_full",
    "Verif.C87_points",
    "Verif.C87_default",
    "Verif.C87_limits",
    "Verif.C87_line"
   ],
   "note": "Violated by the code in the height of the dashed line (C87_line, with a witness on every grid in C88_line); exactly characterised."
  },
  {
   "property": "C88",
   "status": "proved",
   "theorems": [
    "Verif.C88_orders",
    "Verif.C88_axisymmetric",
    "Verif.C88_none",
    "Verif.C88_line"
   ],
   "note": ""
  },
  {
   "property": "C89",
   "status": "proved",
   "theorems": [
    "Verif.C89_defined",
    "Verif.C89_nonnegative",
    "Verif.C89_shows",
    "Verif.C89_count",
    "Verif.C89_single",
    "Verif.C89_nothing",
    "Verif.C89_labels"
   ],
   "note": "Violated by the code when there are fewer axes than types (C89_count), when nothing is drawn (C89_nothing) and in labels between columns (C89_labels); exactly characterised."
  },
  {
   "property": "C90",
   "status": "proved",
   "theorems": [
    "Verif.C90_limits",
    "Verif.C90_largest",
    "Verif.C90_energy"
   ],
   "note": ""
  },
  {
   "property": "C91",
   "status": "proved",
   "theorems": [
    "Verif.C91_visible",
    "Verif.C91_limit",
    "Verif.C91_weights"
   ],
   "note": ""
  },
  {
   "property": "C92",
   "status": "proved",
   "theorems": [
    "Verif.C92_formula",
    "Verif.C92_limit",
    "Verif.C92_factors",
    "Verif.C92_degrees",
    "Verif.C92_blind",
    "Verif.C92_power",
    "Verif.C92_silent"
   ],
   "note": ""
  },
  {
   "property": "C93",
   "status": "proved",
   "theorems": [
    "Verif.C93_corners",
    "Verif.C93_closed",
    "Verif.C93_flat",
    "Verif.C93_normals",
    "Verif.C93_areas",
    "Verif.C93_opposite",
    "Verif.C93_lopsided"
   ],
   "note": ""
  },
  {
   "property": "C94",
   "status": "proved",
   "theorems": [
    "Verif.C94_convert",
    "Verif.C94_plot",
    "Verif.C94_lsd",
    "Verif.C94_position",
    "Verif.C94_between",
    "Verif.C94_unknown",
    "Verif.C94_files",
    "Verif.C94_run",
    "Verif.C94_dashes",
    "Verif.C94_dashes_between",
    "Verif.C94_ambiguous",
    "Verif.C94_unknown_letter"
   ],
   "note": "Violated by the code when an option stands between the two files (C94_between); exactly characterised."
  },
  {
   "property": "C95",
   "status": "proved",
   "theorems": [
    "Verif.C95_str",
    "Verif.C95_lines",
    "Verif.C95_faithful",
    "Verif.C95_repr",
    "Verif.C95_repr_order",
    "Verif.C95_zdi"
   ],
   "note": "Violated by the code for repr (C95_repr_order); exactly characterised. numpy's printing of arrays is a parameter with the property it needs as hypothesis."
  },
  {
   "property": "C96",
   "status": "proved",
   "theorems": [
    "Verif.C96_mean",
    "Verif.C96_caps",
    "Verif.C96_dense"
   ],
   "note": "Exact arithmetic, as everywhere: floating point rounding of the azimuth is not modelled."
  },
  {
   "property": "C97",
   "status": "proved",
   "theorems": [
    "Verif.C97_zero",
    "Verif.C97_forced",
    "Verif.C97_markers",
    "Verif.C97_markers_iff",
    "Verif.C97_levels",
    "Verif.C97_one_sided",
    "Verif.C97_place",
    "Verif.C97_zeros",
    "Verif.C97_defined",
    "Verif.C97_axial"
   ],
   "note": "Violated in the cases named in the statement (C97_forced, C97_one_sided, C97_axial); C97_zero, C97_levels and C97_markers_iff say exactly when it holds. matplotlib's tick locator is part of the model, without its rounding tolerance."
  },
  {
   "property": "C98",
   "status": "proved",
   "theorems": [
    "Verif.C98_potential",
    "Verif.C98_unique",
    "Verif.C98_determined"
   ],
   "note": "Points on the axis itself are excluded from the statements on returned values (the code divides by sin of the polar angle there); the potential is harmonic on the axis as well."
  },
  {
   "property": "C99",
   "status": "proved",
   "theorems": [
    "Verif.C99_radial",
    "Verif.C99_radial_lower",
    "Verif.C99_strength"
   ],
   "note": "Surface bounds are only asked away from the poles."
  },
  {
   "property": "C100",
   "status": "proved",
   "theorems": [
    "Verif.C100_pointwise",
    "Verif.C100_numbers",
    "Verif.C100_shapes",
    "Verif.C100_radii",
    "Verif.C100_columns",
    "Verif.C100_shared_out",
    "Verif.C100_cartesian",
    "Verif.C100_same_point_twice"
   ],
   "note": "Sets with several columns do not get a field per point and column; the theorems state exactly what they get."
  },
  {
   "property": "C101",
   "status": "proved",
   "theorems": [
    "Verif.C101_loops",
    "Verif.C101_sums",
    "Verif.C101_fails",
    "Verif.C101_refused",
    "Verif.C101_no_rows",
    "Verif.C101_cartesian",
    "Verif.C101_cartesian_shapes",
    "Verif.C101_toroidal_raises",
    "Verif.C101_asymmetric"
   ],
   "note": "The superseded finite-difference getter works on two-dimensional arrays only and is modelled separately (Model.Superseded). Arrays without any points: exceptions caused by the degrees and orders are not modelled."
  },
  {
   "property": "C102",
   "status": "proved",
   "theorems": [
    "Verif.C102_radial",
    "Verif.C102_tangential",
    "Verif.C102_pfss",
    "Verif.C102_one_sphere",
    "Verif.C102_polar_ambiguous"
   ],
   "note": "The field means the values at all points off the axis; how many sample points suffice is not claimed."
  },
  {
   "property": "C103",
   "status": "proved",
   "theorems": [
    "Verif.C103_flux",
    "Verif.C103_mean_square",
    "Verif.C103_surface",
    "Verif.C103_falls",
    "Verif.C103_falls_strictly",
    "Verif.C103_smoother",
    "Verif.C103_beyond"
   ],
   "note": "The integrals are exact integrals of the model's radial component; the code has no function that computes them."
  },
  {
   "property": "C104",
   "status": "proved",
   "theorems": [
    "Verif.C104_unsigned",
    "Verif.C104_open"
   ],
   "note": "The integrals are exact integrals of the model's radial component; the code has no function that computes them."
  },
  {
   "property": "C105",
   "status": "proved",
   "theorems": [
    "Verif.C105_accurate",
    "Verif.C105_accurate_negative",
    "Verif.C105_dropped",
    "Verif.C105_not_finite",
    "Verif.C105_exact_positive",
    "Verif.C105_field_nan",
    "Verif.C105_not_finite_negative",
    "Verif.C105_field_nan_negative",
    "Verif.C105_field_dropped",
    "Verif.C105_analysis_zero",
    "Verif.C105_other_method",
    "Verif.C105_pfss_accurate",
    "Verif.C105_pfss_dropped",
    "Verif.C105_pfss_raises"
   ],
   "note": "The exact models used by the other claims do not see these effects (C105_exact_positive): their statements about fields hold of the code only for l + m <= 170. Only the radial component is modelled on floats; negative orders are left out."
  },
  {
   "property": "C106",
   "status": "proved",
   "theorems": [
    "Verif.C106_zdi_nan",
    "Verif.C106_zdi_south",
    "Verif.C106_pfss_not_finite",
    "Verif.C106_pfss_nan",
    "Verif.C106_pfss_zero",
    "Verif.C106_limit"
   ],
   "note": "Assumed of scipy: at -1 and 1 lpmv is zero for nonzero orders and the derivative given by lpmn is infinite for order 1 (the code says so, associated_legendre.py:23); np.sin(0.0) is 0.0 and np.sin(np.pi) a small positive number. The exact models (which put 0 for a quotient by zero) differ from the code on the axis only; claims about values there are stated off the axis."
  },
  {
   "property": "C107",
   "status": "proved",
   "theorems": [
    "Verif.C107_text",
    "Verif.C107_same",
    "Verif.C107_close",
    "Verif.C107_not_injective"
   ],
   "note": "The parameters are python numbers; array parameters (refused by %G) are not covered."
  },
  {
   "property": "C108",
   "status": "proved",
   "theorems": [
    "Verif.C108_add",
    "Verif.C108_add_comm",
    "Verif.C108_exact",
    "Verif.C108_sum_relative",
    "Verif.C108_mul",
    "Verif.C108_sub",
    "Verif.C108_sub_self",
    "Verif.C108_add_sub",
    "Verif.C108_div",
    "Verif.C108_div_exact",
    "Verif.C108_div_raises",
    "Verif.C108_lost"
   ],
   "note": "Real factors and divisors that are python numbers; a numpy divisor gives inf with a warning where a python float raises. Products of two sets and complex factors are not covered in double precision."
  },
  {
   "property": "C109",
   "status": "proved",
   "theorems": [
    "Verif.C109_total",
    "Verif.C109_near_axis",
    "Verif.C109_cone_nan",
    "Verif.C109_overflow",
    "Verif.C109_underflow",
    "Verif.C109_raises"
   ],
   "note": "The accuracy of the azimuth is that of arctan2 and is not restated. Coordinates between 2^-537 and 2^-511 from the origin, and between 2^510 and 2^512, are not covered except by the listed failures."
  },
  {
   "property": "C110",
   "status": "proved",
   "theorems": [
    "Verif.C110_round_trip",
    "Verif.C110_cone",
    "Verif.C110_no_nan",
    "Verif.C110_refused"
   ],
   "note": ""
  },
  {
   "property": "C111",
   "status": "proved",
   "theorems": [
    "Verif.C111_report",
    "Verif.C111_incomplete",
    "Verif.C111_nan",
    "Verif.C111_hundred",
    "Verif.C111_table_first",
    "Verif.C111_table",
    "Verif.C111_hundred_sharp"
   ],
   "note": ""
  },
  {
   "property": "C112",
   "status": "proved",
   "theorems": [
    "Verif.C112_radial",
    "Verif.C112_polar",
    "Verif.C112_azimuthal",
    "Verif.C112_cartesian",
    "Verif.C112_digits"
   ],
   "note": ""
  },
  {
   "property": "C113",
   "status": "proved",
   "theorems": [
    "Verif.C113_get",
    "Verif.C113_array_empty",
    "Verif.C113_array_accepted",
    "Verif.C113_array_refused",
    "Verif.C113_add",
    "Verif.C113_mul",
    "Verif.C113_isclose"
   ],
   "note": ""
  },
  {
   "property": "C114",
   "status": "proved",
   "theorems": [
    "Verif.C114_radial",
    "Verif.C114_polar",
    "Verif.C114_azimuthal",
    "Verif.C114_strength",
    "Verif.C114_radial_sharp",
    "Verif.C114_theta",
    "Verif.C114_dtheta",
    "Verif.C114_pfss"
   ],
   "note": ""
  },
  {
   "property": "C115",
   "status": "proved",
   "theorems": [
    "Verif.C115_inside",
    "Verif.C115_refused",
    "Verif.C115_spherical",
    "Verif.C115_cartesian",
    "Verif.C115_digits"
   ],
   "note": ""
  },
  {
   "property": "C116",
   "status": "proved",
   "theorems": [
    "Verif.C116_tangential",
    "Verif.C116_strength",
    "Verif.C116_more_radial",
    "Verif.C116_energy",
    "Verif.C116_energy_grows",
    "Verif.C116_energy_le",
    "Verif.C116_energy_limit",
    "Verif.C116_energy_beyond"
   ],
   "note": ""
  },
  {
   "property": "C117",
   "status": "proved",
   "theorems": [
    "Verif.C117_real",
    "Verif.C117_overflow",
    "Verif.C117_energy",
    "Verif.C117_hidden",
    "Verif.C117_hidden_lost",
    "Verif.C117_negative",
    "Verif.C117_sums",
    "Verif.C117_report",
    "Verif.C117_table",
    "Verif.C117_assert",
    "Verif.C117_dest",
    "Verif.C117_bounds",
    "Verif.C117_share_above_one"
   ],
   "note": ""
  },
  {
   "property": "C118",
   "status": "proved",
   "theorems": [
    "Verif.C118_forward",
    "Verif.C118_inverse",
    "Verif.C118_beta",
    "Verif.C118_meant",
    "Verif.C118_degree_refused",
    "Verif.C118_succeeds",
    "Verif.C118_zdi_to_pfss",
    "Verif.C118_pfss_to_zdi",
    "Verif.C118_round_trip"
   ],
   "note": ""
  },
  {
   "property": "C119",
   "status": "proved",
   "theorems": [
    "Verif.C119_points",
    "Verif.C119_unit_sphere",
    "Verif.C119_heights",
    "Verif.C119_spiral",
    "Verif.C119_random",
    "Verif.C119_errors"
   ],
   "note": ""
  },
  {
   "property": "C120",
   "status": "proved",
   "theorems": [
    "Verif.C120_true",
    "Verif.C120_close",
    "Verif.C120_self",
    "Verif.C120_infinite",
    "Verif.C120_overflow",
    "Verif.C120_written",
    "Verif.C120_round_trip"
   ],
   "note": ""
  },
  {
   "property": "C121",
   "status": "proved",
   "theorems": [
    "Verif.C121_bernoulli",
    "Verif.C121_momentum",
    "Verif.C121_sonic",
    "Verif.C121_reached"
   ],
   "note": ""
  },
  {
   "property": "C122",
   "status": "proved",
   "theorems": [
    "Verif.C122_density",
    "Verif.C122_similar",
    "Verif.C122_hotter",
    "Verif.C122_heavier",
    "Verif.C122_larger",
    "Verif.C122_static",
    "Verif.C122_far"
   ],
   "note": ""
  },
  {
   "property": "C123",
   "status": "proved",
   "theorems": [
    "Verif.C123_equation",
    "Verif.C123_speed",
    "Verif.C123_underflow",
    "Verif.C123_cold",
    "Verif.C123_sonic"
   ],
   "note": ""
  },
  {
   "property": "C124",
   "status": "proved",
   "theorems": [
    "Verif.C124_sonic",
    "Verif.C124_density",
    "Verif.C124_flux",
    "Verif.C124_conserved",
    "Verif.C124_speed"
   ],
   "note": ""
  },
  {
   "property": "C125",
   "status": "proved",
   "theorems": [
    "Verif.C125_describe",
    "Verif.C125_areas",
    "Verif.C125_corners",
    "Verif.C125_corners_default",
    "Verif.C125_corners_refused",
    "Verif.C125_description",
    "Verif.C125_geometry",
    "Verif.C125_no_facets",
    "Verif.C125_nonfinite"
   ],
   "note": ""
  },
  {
   "property": "C126",
   "status": "proved",
   "theorems": [
    "Verif.C126_average",
    "Verif.C126_between",
    "Verif.C126_invisible",
    "Verif.C126_two_corners",
    "Verif.C126_full_sphere",
    "Verif.C126_default_grid",
    "Verif.C126_default_azimuths",
    "Verif.C126_default_curve",
    "Verif.C126_full_turn"
   ],
   "note": ""
  },
  {
   "property": "C127",
   "status": "proved",
   "theorems": [
    "Verif.C127_transpose",
    "Verif.C127_matrix",
    "Verif.C127_sums",
    "Verif.C127_field",
    "Verif.C127_length",
    "Verif.C127_round_trip",
    "Verif.C127_refuses",
    "Verif.C127_one_azimuth",
    "Verif.C127_curve"
   ],
   "note": ""
  },
  {
   "property": "C128",
   "status": "proved",
   "theorems": [
    "Verif.C128_fold",
    "Verif.C128_field",
    "Verif.C128_overflow"
   ],
   "note": ""
  },
  {
   "property": "C129",
   "status": "proved",
   "theorems": [
    "Verif.C129_rotate",
    "Verif.C129_field",
    "Verif.C129_folded",
    "Verif.C129_refused"
   ],
   "note": ""
  },
  {
   "property": "C130",
   "status": "proved",
   "theorems": [
    "Verif.C130_centres",
    "Verif.C130_to_image",
    "Verif.C130_from_image",
    "Verif.C130_grid",
    "Verif.C130_round"
   ],
   "note": ""
  },
  {
   "property": "C131",
   "status": "proved",
   "theorems": [
    "Verif.C131_roundtrip",
    "Verif.C131_steps"
   ],
   "note": ""
  },
  {
   "property": "C132",
   "status": "proved",
   "theorems": [
    "Verif.C132_nan",
    "Verif.C132_matrix",
    "Verif.C132_none",
    "Verif.C132_others"
   ],
   "note": ""
  },
  {
   "property": "C133",
   "status": "proved",
   "theorems": [
    "Verif.C133_dest",
    "Verif.C133_print",
    "Verif.C133_real"
   ],
   "note": ""
  },
  {
   "property": "C134",
   "status": "proved",
   "theorems": [
    "Verif.C134_scaled",
    "Verif.C134_field",
    "Verif.C134_raw",
    "Verif.C134_overflow"
   ],
   "note": ""
  },
  {
   "property": "C135",
   "status": "proved",
   "theorems": [
    "Verif.C135_range",
    "Verif.C135_nonnegative",
    "Verif.C135_order",
    "Verif.C135_reversed",
    "Verif.C135_field",
    "Verif.C135_overflow",
    "Verif.C135_overflow_nonnegative"
   ],
   "note": ""
  }
 ]
}
