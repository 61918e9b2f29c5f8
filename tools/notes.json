{
 "C02": {
  "note": "Integer indices: proved. The fractional-index overwrite named in the property is exhibited."
 },
 "C03": {
  "note": "Induction over all programs built from the public container operations (Spec.Reach)."
 },
 "C08": {
  "note": "The necessity of the zero-default hypothesis is shown by a counterexample."
 },
 "C16": {
  "note": "Stated over exact complex numbers (np.isclose on finite values)."
 },
 "C15": {
  "note": "Storage-level model with views and in-place writes; all disciplined programs. The live arrays handed out by get and the constructor's aliasing are exhibited as theorems."
 },
 "C17": {
  "note": "Text-level reader over the full grammar of python int()/float() tokens (any table of decimal digits); binary64 values."
 },
 "C20": {
  "note": "Window order_min..; hypotheses: finite values, at least one column, non-empty window, header lines that are not data (C24)."
 },
 "C21": {
  "status": "proved",
  "note": "Violated by the code for some negative zeros (C21_negative_zero_lost); C21_identical_iff says exactly for which. Numerical stability is proved without restriction."
 },
 "C23": {
  "status": "proved",
  "note": "Violated by the code (C23_header_always_one, C23_header_wrong); C23_header_iff says exactly when the header is right."
 },
 "C24": {
  "note": "With the file-name proviso named in the property, whose necessity is proved."
 },
 "C35": {
  "note": "Over exact reals; arctan2 is Complex.arg."
 },
 "C37": {
  "note": "evaluate_cartesian and get_cartesian_field; the toroidal variant is shown to raise always."
 },
 "C38": {
  "note": "'m itself is unchanged' is immediate in the value model (copies are values)."
 },
 "C41": {
  "note": "Exact complex arithmetic; fractions with a zero denominator are nan in numpy and excluded."
 },
 "C44": {
  "note": "The dropped negative orders are exhibited."
 },
 "C45": {
  "note": "Non-negative orders: proved. The wrong lookup for negative orders is exhibited."
 },
 "C25": {
  "note": "Sets of dtype real or complex; together with C25_radial_is_surfaceField, which ties get_radial_field to the textbook sum for all orders."
 },
 "C30": {
  "note": "Non-empty single-column sets with non-negative orders; a negative order is refused by the assert (C30_negative_order)."
 },
 "C32": {
  "note": "Gradient and Laplace equation by calculus; the Legendre equation is proved from the Rodrigues form."
 },
 "C34": {
  "status": "partial",
  "note": "PFSS field (all points) and ZDI radial field (all orders, all points): proved. ZDI tangential fields off the poles: proved when each set has no negative orders or orders as high as the other (C34_zdi_tangential, errors included); C34_negative_orders_fail proves that the unrestricted statement is false."
 },
 "C27": {
  "note": "Exact arithmetic; dtype real or complex; any iteration order of the key set."
 },
 "C29": {
  "note": "Agreement proved for rss = 3 r*; C29_other_radii proves disagreement (dipole) for every other source surface radius, including the default 2.5."
 },
 "C46": {
  "note": "Exact arithmetic. Mixed constructor arguments are covered by C46_mixed."
 },
 "C47": {
  "note": "Angle in euclidean three-space (Mathlib's InnerProductGeometry.angle)."
 },
 "C48": {
  "note": "Bounds for observers that see a facet (always the case on full-sphere grids with at least 2 x 3 facets: C48_full_sphere_visible). Linearity for non-negative orders (see C34). The truncation for integer azimuths is exhibited."
 },
 "C49": {
  "note": "The assertion is characterised exactly (C49_assertion_iff); numerical_description as a whole succeeds on every full-sphere grid for non-negative orders and fails on a half sphere."
 },
 "C50": {
  "note": "Exact arithmetic, for every random offset; numbers of points that are zero or negative raise (C50_errors)."
 },
 "C51": {
  "note": "lambertw is modelled as the real solution of w e^w = x on the branch asked for; existence on the arguments used is proved (C51_lambert_domain)."
 },
 "C52": {
  "note": "For positive physical parameters and float radii. For integer arrays and a fractional stellar radius the clause about radii inside the star fails (C52_integer_radii)."
 },
 "C53": {
  "note": "The property is violated: C53_overwritten exhibits it, C53_unchanged_iff says exactly when a float array survives, C53_effect gives the complete effect on the caller's arrays."
 },
 "C54": {
  "note": "Wigner_D_element enters as a hypothesis (unitary representation, UnitaryRep); C69_representation shows that the documented Wigner matrices of all unit quaternions satisfy it. Proved for complex sets with zero default; other dtypes raise (C54_real_raises) and a default other than zero is added to every value (C54_default_added)."
 },
 "C55": {
  "note": "Wigner matrices of z rotations written out (zRotation). The radial field and the two tangential components that do not use the Legendre table are covered."
 },
 "C56": {
  "note": "All call sequences, all capacities, sph_harm as a parameter; the arrays live in a heap, so later writes are visible."
 },
 "C57": {
  "note": "sph_harm is a parameter. Any corner arrays (C57_geometry: every geometry is of this form). Also proved: analysis is the adjoint of synthesis (C57_adjoint)."
 },
 "C58": {
  "note": "File system with links, permissions and an encoding. Names are POSIX paths. The clause \"on any error nothing is written\" fails only for names that cannot be encoded (C58_error, C58_unencodable_witness); other names of the input file are not recognised (C58_alias, C58_alias_witness)."
 },
 "C59": {
  "note": "The values of the conversion factors are parameters (any float64, may raise); C59_accuracy gives the error of the output relative to exact factors. Output statements assume finite products and a header line that does not read as data (C24). Negative orders are dropped (C59_negative_orders_witness)."
 },
 "C60": {
  "note": "Values are exact rationals; exponents and steps are integers. C60_empty_range is the disagreement."
 },
 "C61": {
  "note": "For every text and every table of Unicode digits; exponents are parsed as int() does."
 },
 "C62": {
  "note": "Violated by the code: C62_times gives the exact number of intervals per sample, C62_never_a_partition and C62_jump_inside the violations, C62_repaired shows that the two off-by-one errors are the only faults."
 },
 "C63": {
  "note": "Curves proved in full. The colour range claim is violated below energy 1 (C63_colour_order gives the exact condition). Real arithmetic; drawing not modelled."
 },
 "C66": {
  "note": "Exact arithmetic. Points on the axis are excluded in C66_value (calculate_lpmn divides by sin there). Arrays of equal two-dimensional shape."
 },
 "C67": {
  "note": "Exact arithmetic. The imaginary part of an order 0 coefficient does not show in the field, so only its real part is recovered; the tangential coefficients of degree 0 come back as 0."
 },
 "C68": {
  "note": "Exact arithmetic; sph_harm is the orthonormal harmonic with Condon-Shortley phase (scipyY). Coefficients the set does not store tend to 0, whatever the default of the set."
 },
 "C69": {
  "note": "Wigner_D_element and from_euler_angles at their documented formulas, exact arithmetic. Points have colatitudes with nonnegative sine. The statement is about the radial field."
 },
 "C70": {
  "note": "Points off the polar axis (the components are not defined there). Signs account for the mirrored azimuth of the PFSS convention."
 },
 "C71": {
  "note": "Three columns; points off the polar axis."
 },
 "C72": {
  "note": "Drawing is not modelled; three rules of matplotlib's colour limits are used (stated in Model.Maps). The shared scale is proved exactly where it holds; elsewhere the negation is proved."
 },
 "C73": {
  "note": "Numbers of the labels before formatting; for the formatting see C74."
 },
 "C74": {
  "note": "The rounding of printf %g is modelled as round-half-even on the exact value."
 },
 "C75": {
  "status": "partial",
  "note": "The code violates the property with matplotlib >= 3.5 (C75_normalized, C75_witness) and for purely toroidal magnetograms (C75_toroidal_only); without normalisation the shares are proved, and C75_defined characterises when a summary can be drawn."
 },
 "C76": {
  "status": "partial",
  "note": "The code violates the part about the symbols (C76_symbols_swapped) and, for --type pfss, shows the mirrored field (C76_pfss, C76_mirrored). Everything else is proved; numbers are exact after reading."
 },
 "C77": {
  "note": "Violated by the code for a single parameter (C77_one); for two or more everything is proved, and the library function is proved for any number."
 },
 "C78": {
  "note": "Violated by the code for a single profile (C78_single); everything else is proved, with the automatic limits as a parameter."
 },
 "C79": {
  "status": "partial",
  "note": "Every sample exactly once is false (C62); what is drawn instead is stated with multiplicities."
 },
 "C80": {
  "status": "proved",
  "note": "Violated by the code for the normals y and z and by the label of the abscissa; both stated exactly (C80_only_x, C80_label_wrong). The conditions of streamplot on its grid are part of the model."
 },
 "C81": {
  "status": "proved",
  "note": "Violated by the code in the legend and in the direction of the lines; both stated exactly (C81_legend, C81_direction). MaxNLocator is a parameter."
 },
 "C82": {
  "status": "proved",
  "note": "Violated by the code next to the poles, stated exactly (C82_pole, C82_stuck, C82_roll); convergence elsewhere is proved for all magnetograms and grids."
 },
 "C83": {
  "status": "proved",
  "note": "Violated by the code at the poles and within one step of the south pole (C83_zero, C83_order_one); the mean value statement holds everywhere else."
 },
 "C84": {
  "status": "proved",
  "note": "Violated by the code for degree 0 with beta other than 0 (C84_monopole; for positive beta numpy stores nan, which the model represents as an exception)."
 },
 "C85": {
  "status": "proved",
  "note": "Violated by the code in the legend (C85_legend), in the widths without a tangential field (C85_width) and in the direction of the lines (C81_direction)."
 },
 "C86": {
  "status": "proved",
  "note": "Violated by the code for limits that exclude some negative power (C86_inside), for axis='y' (C86_vertical) and for colour bars with an axis in units of the value (C86_value_axis); exactly characterised."
 },
 "C87": {
  "status": "proved",
  "note": "Violated by the code in the height of the dashed line (C87_line, with a witness on every grid in C88_line); exactly characterised."
 },
 "C88": {
  "status": "proved",
  "note": ""
 },
 "C89": {
  "status": "proved",
  "note": "Violated by the code when there are fewer axes than types (C89_count), when nothing is drawn (C89_nothing) and in labels between columns (C89_labels); exactly characterised."
 },
 "C94": {
  "status": "proved",
  "note": "Violated by the code when an option stands between the two files (C94_between); exactly characterised."
 },
 "C95": {
  "note": "Violated by the code for repr (C95_repr_order); exactly characterised. numpy's printing of arrays is a parameter with the property it needs as hypothesis."
 },
 "C96": {
  "note": "Exact arithmetic, as everywhere: floating point rounding of the azimuth is not modelled."
 },
 "C97": {
  "note": "Violated in the cases named in the statement (C97_forced, C97_one_sided, C97_axial); C97_zero, C97_levels and C97_markers_iff say exactly when it holds. matplotlib's tick locator is part of the model, without its rounding tolerance."
 },
 "C98": {
  "note": "Points on the axis itself are excluded from the statements on returned values (the code divides by sin of the polar angle there); the potential is harmonic on the axis as well."
 },
 "C99": {
  "note": "Surface bounds are only asked away from the poles."
 },
 "C100": {
  "note": "Sets with several columns do not get a field per point and column; the theorems state exactly what they get."
 },
 "C101": {
  "note": "The superseded finite-difference getter works on two-dimensional arrays only and is modelled separately (Model.Superseded). Arrays without any points: exceptions caused by the degrees and orders are not modelled."
 },
 "C102": {
  "note": "The field means the values at all points off the axis; how many sample points suffice is not claimed."
 },
 "C103": {
  "note": "The integrals are exact integrals of the model's radial component; the code has no function that computes them."
 },
 "C104": {
  "note": "The integrals are exact integrals of the model's radial component; the code has no function that computes them."
 },
 "C105": {
  "note": "The exact models used by the other claims do not see these effects (C105_exact_positive): their statements about fields hold of the code only for l + m <= 170. Only the radial component is modelled on floats; negative orders are left out."
 },
 "C106": {
  "note": "Assumed of scipy: at -1 and 1 lpmv is zero for nonzero orders and the derivative given by lpmn is infinite for order 1 (the code says so, associated_legendre.py:23); np.sin(0.0) is 0.0 and np.sin(np.pi) a small positive number. The exact models (which put 0 for a quotient by zero) differ from the code on the axis only; claims about values there are stated off the axis."
 },
 "C107": {
  "note": "The parameters are python numbers; array parameters (refused by %G) are not covered."
 },
 "C108": {
  "note": "Real factors and divisors that are python numbers; a numpy divisor gives inf with a warning where a python float raises. Products of two sets and complex factors are not covered in double precision."
 },
 "C109": {
  "note": "The accuracy of the azimuth is that of arctan2 and is not restated. Coordinates between 2^-537 and 2^-511 from the origin, and between 2^510 and 2^512, are not covered except by the listed failures."
 }
}