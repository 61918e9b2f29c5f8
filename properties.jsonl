{"id": "C01", "title": "A coefficient set is a faithful map from (degree, order) to values", "statement": "After any sequence of set and append calls, successful or failing, get(l, m) with plain int arguments returns the (dtype-cast) value of the last successful store at (l, m), has(l, m) says whether there was one, and get returns the default value when there was none; size is the number of distinct stored pairs.", "quantifier": "all default values, all sequences of set/append calls of any length with any integer or fractional indices and any data, all lookups", "why_tests_cant": "The claim is about every history of calls; a test runs a handful of fixed histories.", "anchors": ["starwinds_magnetogram/coefficients.py:Coefficients.set", "starwinds_magnetogram/coefficients.py:Coefficients.append", "starwinds_magnetogram/coefficients.py:Coefficients.get", "starwinds_magnetogram/coefficients.py:Coefficients.has", "starwinds_magnetogram/coefficients.py:Coefficients.size"]}
{"id": "C02", "title": "append with integer indices never overwrites", "statement": "append(l, m, data) with integer l, m raises IndexError exactly when has(l, m) is already true, and then nothing changes; it never changes the value of any pair that was already stored. (With fractional indices the check is made before truncation, so append(1.5, 0, x) does overwrite (1, 0).)", "quantifier": "all coefficient sets, all integer index pairs, all data; plus the fractional counterexample", "why_tests_cant": "Absence of overwriting must hold in every reachable state, for every key and value.", "anchors": ["starwinds_magnetogram/coefficients.py:Coefficients.append", "starwinds_magnetogram/coefficients.py:Coefficients.set"]}
{"id": "C03", "title": "Every reachable coefficient set is well formed", "statement": "Whatever public operations produced it (constructor, set, append, copy, scale, add, subtract, multiply, divide, power, truncated, hstack, hsplit, zeros_like, empty_like, from_arrays, file reading, conversion), a set stores only pairs with |m| <= l, every stored array has the length and dtype of the default, no pair occurs twice, degree_max is the largest stored degree (0 when empty) and order_min the lowest of 0 and the stored orders.", "quantifier": "all finite programs over the public operations, all operands", "why_tests_cant": "An invariant over all compositions of operations; tests only see particular compositions.", "anchors": ["starwinds_magnetogram/coefficients.py:Coefficients", "starwinds_magnetogram/coefficients.py:add", "starwinds_magnetogram/coefficients.py:hstack", "starwinds_magnetogram/coefficients.py:hsplit", "starwinds_magnetogram/coefficients.py:truncated"]}
{"id": "C04", "title": "Failed stores leave the set untouched", "statement": "If set or append raises (wrong shape, |m| > l, pair already present) the observable content, degree_max, order_min and size are exactly those from before the call.", "quantifier": "all coefficient sets and all argument combinations that raise", "why_tests_cant": "Exception safety has to hold for every failing argument and prior state.", "anchors": ["starwinds_magnetogram/coefficients.py:Coefficients.set", "starwinds_magnetogram/coefficients.py:Coefficients.append"]}
{"id": "C05", "title": "contents is sorted and independent of the insertion history", "statement": "contents() yields each stored pair exactly once in increasing (degree, order) order; two sets storing the same values yield identical sequences whatever the order in which the values were inserted.", "quantifier": "all coefficient sets, all permutations of their insertion order", "why_tests_cant": "There are factorially many insertion orders; CPython set/dict iteration order is not controllable from a test.", "anchors": ["starwinds_magnetogram/coefficients.py:Coefficients.contents"]}
{"id": "C06", "title": "as_arrays returns exactly the requested window", "statement": "as_arrays(include_unset=True, ...) lists every (l, m) with degree_l_min <= l <= degree_l_max, |m| <= l, order_m_min <= m <= order_m_max exactly once in increasing order, with get(l, m) as value; include_unset=False lists the stored ones among them; the three arrays have equal length; with default arguments the row count is (L+1)^2. An empty window raises ValueError.", "quantifier": "all coefficient sets and all integer window bounds, including reversed and negative ones", "why_tests_cant": "The window is a 4-parameter family over unbounded integers.", "anchors": ["starwinds_magnetogram/coefficients.py:Coefficients.as_arrays"]}
{"id": "C07", "title": "from_arrays undoes as_arrays", "statement": "For every non-empty coefficient set with zero default, from_arrays(*s.as_arrays(include_unset=False)) stores the same pairs with the same values; conversely as_arrays(include_unset=False) of from_arrays(ls, ms, cs) is the sorted table of the rows; repeated rows raise IndexError.", "quantifier": "all coefficient sets / all tables of rows", "why_tests_cant": "Round-trip over an infinite domain.", "anchors": ["starwinds_magnetogram/coefficients.py:from_arrays", "starwinds_magnetogram/coefficients.py:Coefficients.as_arrays"]}
{"id": "C08", "title": "Addition is pointwise, commutative and associative, whatever order Python iterates its key set in", "statement": "For sets with zero default and equal dtype, (a+b).get(l,m) = a.get(l,m)+b.get(l,m) for every (l,m), a+b = b+a, (a+b)+c = a+(b+c), the stored pairs of a+b are the union, and none of this depends on the iteration order of the key union. Shape mismatch raises AssertionError.", "quantifier": "all pairs/triples of coefficient sets with zero default, all iteration orders of the union of keys", "why_tests_cant": "Set iteration order depends on hashing and insertion history and cannot be enumerated by tests.", "anchors": ["starwinds_magnetogram/coefficients.py:add", "starwinds_magnetogram/coefficients.py:Coefficients.__add__"]}
{"id": "C09", "title": "Subtraction inverts addition", "statement": "For sets with zero default, (a+b)-b has the values of a at every (l,m), a-a is zero at every (l,m), and a-b = -(b-a) pointwise. (With a non-zero default this fails for pairs missing in one operand.)", "quantifier": "all coefficient sets with zero default; counterexample for non-zero default", "why_tests_cant": "Algebraic law over all inputs.", "anchors": ["starwinds_magnetogram/coefficients.py:Coefficients.__sub__", "starwinds_magnetogram/coefficients.py:multiply", "starwinds_magnetogram/coefficients.py:add"]}
{"id": "C10", "title": "Scalar multiplication and division behave as in a vector space", "statement": "(a*x).get = x*a.get for stored pairs, a*x = x*a, (a*x)*y = a*(x*y), (a+b)*x = a*x+b*x, a*1 = a, and (a/x)*x = a for x != 0; the stored pairs do not change.", "quantifier": "all coefficient sets with zero default, all scalars", "why_tests_cant": "Algebraic laws over all inputs.", "anchors": ["starwinds_magnetogram/coefficients.py:multiply", "starwinds_magnetogram/coefficients.py:Coefficients.__mul__", "starwinds_magnetogram/coefficients.py:Coefficients.__rmul__", "starwinds_magnetogram/coefficients.py:Coefficients.__truediv__"]}
{"id": "C11", "title": "Element-wise product and quotient of two sets", "statement": "a*b is pointwise over the union of pairs; (a*b)/b has the values of a wherever b is stored and nowhere zero; a/b at a pair missing in b is 0 (not an error).", "quantifier": "all pairs of compatible coefficient sets with zero default", "why_tests_cant": "Law over all inputs.", "anchors": ["starwinds_magnetogram/coefficients.py:multiply", "starwinds_magnetogram/coefficients.py:Coefficients.__truediv__", "starwinds_magnetogram/coefficients.py:Coefficients.__pow__"]}
{"id": "C12", "title": "scale multiplies each coefficient by its own factor and composes", "statement": "scale(f, p) keeps the pairs and multiplies the value at (l,m) by f(l,m)**p; scale(f,1) then scale(f,-1) is the identity when f is never zero; scale(f) then scale(g) equals scale(f*g); the original set is unchanged.", "quantifier": "all coefficient sets, all factor functions", "why_tests_cant": "Quantifies over arbitrary factor functions.", "anchors": ["starwinds_magnetogram/coefficients.py:scale", "starwinds_magnetogram/coefficients.py:copy"]}
{"id": "C13", "title": "truncated keeps exactly the low degrees", "statement": "truncated(n) stores (l,m) iff the source stores it and l <= n, with the same value; truncating at n then k equals truncating at min(n,k); truncating at or above degree_max changes nothing.", "quantifier": "all coefficient sets, all integers n, k", "why_tests_cant": "Unbounded domain.", "anchors": ["starwinds_magnetogram/coefficients.py:truncated"]}
{"id": "C14", "title": "hsplit and hstack are inverse", "statement": "hstack(hsplit(s)) has the same pairs and values as s; hsplit(hstack([s1..sk])) returns k sets, each having the value of si at every (l,m) (missing pairs filled with the default of si); the result is independent of set iteration order. With a list of k positions hsplit never fails and returns k+1 sets with the same pairs, cut at the positions (negative ones from the end, all clamped); stacking them gives the set back exactly when the positions increase, otherwise columns are repeated.", "quantifier": "all coefficient sets, all non-empty lists of single-column sets, all iteration orders, all lists of positions", "why_tests_cant": "Round trip over an unbounded domain and all iteration orders.", "anchors": ["starwinds_magnetogram/coefficients.py:hstack", "starwinds_magnetogram/coefficients.py:hsplit"]}
{"id": "C15", "title": "Derived sets share no storage with their sources", "statement": "After copy, empty_like, zeros_like, truncated, scale, add, multiply, hstack, hsplit or set(data), no later set/append/scale or in-place change of the caller's data array alters the values observed through the other object. (Three leaks exist and are exhibited: the constructor aliases an ndarray default, get returns live storage, also of the default, and hsplit at positions that do not increase returns sets whose defaults overlap.)", "quantifier": "all finite interleavings of operations on any number of sets and arrays in a shared heap", "why_tests_cant": "Aliasing bugs show only under particular interleavings; the claim is for all of them.", "anchors": ["starwinds_magnetogram/coefficients.py:Coefficients.set", "starwinds_magnetogram/coefficients.py:copy", "starwinds_magnetogram/coefficients.py:Coefficients.__init__", "starwinds_magnetogram/coefficients.py:Coefficients.get", "starwinds_magnetogram/coefficients.py:Coefficients.default_coefficients"]}
{"id": "C16", "title": "allclose decides closeness of all values", "statement": "allclose(a,b) is true iff shapes agree and |a.get(l,m)-b.get(l,m)| <= atol+rtol*|b.get(l,m)| for every (l,m) stored in either; it is reflexive; it does not depend on key iteration order. It raises ValueError when both sets are empty and is not symmetric.", "quantifier": "all pairs of coefficient sets, all non-negative tolerances, all iteration orders", "why_tests_cant": "Quantifies over all values and orders.", "anchors": ["starwinds_magnetogram/coefficients.py:allclose", "starwinds_magnetogram/coefficients.py:isclose"]}
{"id": "C17", "title": "The reader is total on text", "statement": "For every text content read_magnetogram_file either returns a coefficient set or raises AssertionError, and it raises exactly when some data line (four leading tokens int int float float) has |m| > l. No other exception escapes.", "quantifier": "all character sequences", "why_tests_cant": "All files; fuzzing samples only.", "anchors": ["starwinds_magnetogram/reader_writer.py:read_magnetogram_file"]}
{"id": "C18", "title": "Non-data lines, surrounding whitespace, trailing tokens and newline style do not matter", "statement": "Inserting or deleting lines that do not start with int int float float tokens, changing whitespace around and between tokens, appending further tokens after the fourth, or switching between \\n, \\r\\n and \\r line ends does not change what is read.", "quantifier": "all texts, all positions and contents of inserted lines, all whitespace strings", "why_tests_cant": "Unbounded family of file variants.", "anchors": ["starwinds_magnetogram/reader_writer.py:read_magnetogram_file"]}
{"id": "C19", "title": "Block structure of a file is recovered", "statement": "If a file consists of k blocks of data lines, no pair repeated inside a block, and every block after the first starts with a pair of the preceding block, the result has k columns and column i at (l,m) is the value in block i, or 0 if absent.", "quantifier": "all sequences of blocks of any length", "why_tests_cant": "Unbounded sequences of lines; state-machine property.", "anchors": ["starwinds_magnetogram/reader_writer.py:read_magnetogram_file", "starwinds_magnetogram/coefficients.py:hstack"]}
{"id": "C20", "title": "Writing then reading preserves every coefficient to seven significant digits", "statement": "For every coefficient set with finite values, reading the file written by write_magnetogram_file yields a set with the same number of columns, which stores exactly the pairs 0 <= l <= degree_max, max(order_min,-l) <= m <= l, and whose real and imaginary parts are the doubles nearest to the originals rounded to 7 significant decimals: a relative error of at most 5e-7 for the decimal, 1e-6 in all (the latter matters only for subnormal numbers).", "quantifier": "all finite coefficient sets with non-negative orders (any number of columns), all degree_max", "why_tests_cant": "All values and sizes; formatting bugs occur at rounding boundaries such as 9.9999995.", "anchors": ["starwinds_magnetogram/reader_writer.py:write_magnetogram_file", "starwinds_magnetogram/reader_writer.py:read_magnetogram_file"]}
{"id": "C21", "title": "A second write is byte-identical", "statement": "write(read(write(s))) produces the same file as write(s): seven-digit rounding is a fixed point after one round trip. (Violated for some negative zeros: the second file is the first if and only if every imaginary part -0.0 is read by python 3.14 or later and every real part -0.0 stands next to an imaginary part with a minus sign. The numerical values are stable without restriction.)", "quantifier": "all finite coefficient sets", "why_tests_cant": "Idempotence of decimal rounding through binary floats for all values.", "anchors": ["starwinds_magnetogram/reader_writer.py:write_magnetogram_file", "starwinds_magnetogram/reader_writer.py:read_magnetogram_file"]}
{"id": "C22", "title": "The writer pads and truncates exactly as asked", "statement": "The data lines are, column by column, one per (l,m) with 0 <= l <= degree_max, max(order_min,-l) <= m <= l in increasing order, with the default value for unset pairs; degrees above degree_max and orders below order_min are dropped (so --degree-max truncates as well as pads, and negative orders are silently lost by default). An empty window raises ValueError, a set without columns ZeroDivisionError.", "quantifier": "all coefficient sets, all degree_max >= 0 and order_min", "why_tests_cant": "Unbounded family.", "anchors": ["starwinds_magnetogram/reader_writer.py:write_magnetogram_file"]}
{"id": "C23", "title": "The SWMF header states the number of data lines", "statement": "The second number line of the SWMF header equals the number of data lines written. (Violated: the header always says 1, whatever is written; it is right if and only if the set has one column and the window one pair.)", "quantifier": "all coefficient sets", "why_tests_cant": "Universally quantified; existing tests never compare the header with the body.", "anchors": ["starwinds_magnetogram/reader_writer.py:write_magnetogram_file", "starwinds_magnetogram/reader_writer.py:create_swmf_header"]}
{"id": "C24", "title": "Header lines are never mistaken for data", "statement": "Reading a file written with either header gives the data lines only. (Holds for the plain header and for the SWMF header unless the file name itself reads as a data line, e.g. \"1 0 2 3\".)", "quantifier": "all coefficient sets, all file names", "why_tests_cant": "Quantifies over all file names.", "anchors": ["starwinds_magnetogram/reader_writer.py:create_swmf_header", "starwinds_magnetogram/reader_writer.py:write_magnetogram_file", "starwinds_magnetogram/reader_writer.py:read_magnetogram_file"]}
{"id": "C25", "title": "Folding negative orders keeps the radial field", "statement": "map_to_positive_orders(s) stores exactly the pairs 0 <= m <= l <= degree_max and the radial field it represents equals that of s at every point.", "quantifier": "all single-column coefficient sets with zero default, all surface points", "why_tests_cant": "Equality of functions for all coefficients and points.", "anchors": ["starwinds_magnetogram/converter.py:map_to_positive_orders", "starwinds_magnetogram/converter.py:collect_cosines", "starwinds_magnetogram/zdi_magnetogram.py:ZdiMagnetogram.get_radial_poloidal_field"]}
{"id": "C26", "title": "collect_cosines and collect_sines are the trigonometric addition they claim to be", "statement": "For (t, g) = collect_cosines(r, a, s, b): r cos(x+a) + s cos(-x+b) = t cos(x+g) for all x, t >= 0; similarly collect_sines for sines.", "quantifier": "all real r, a, s, b and x", "why_tests_cant": "Identity over the reals.", "anchors": ["starwinds_magnetogram/converter.py:collect_cosines", "starwinds_magnetogram/converter.py:collect_sines"]}
{"id": "C27", "title": "ZDI to PFSS conversion and back is lossless", "statement": "The first column of convert_pfss_to_zdi(convert_zdi_to_pfss(s)) equals s at every pair, and convert_zdi_to_pfss of the first column of convert_pfss_to_zdi(t) equals t; the third column is zero; the pairs stored do not change.", "quantifier": "all single-column coefficient sets with zero default (exact arithmetic)", "why_tests_cant": "Round trip for all degrees, orders and values.", "anchors": ["starwinds_magnetogram/converter.py:convert_zdi_to_pfss", "starwinds_magnetogram/converter.py:convert_pfss_to_zdi", "starwinds_magnetogram/converter.py:forward_conversion_factor"]}
{"id": "C28", "title": "The converted magnetogram is the same surface field, mirrored in azimuth", "statement": "At the stellar surface the PFSS radial field of convert_zdi_to_pfss(s) at (polar, azimuth) equals the ZDI radial field of s at (polar, -azimuth), for every source surface radius.", "quantifier": "all coefficient sets with non-negative orders, all points, all r* < rss", "why_tests_cant": "Function identity; tests compare on one grid for a few coefficient sets and use flipud.", "anchors": ["starwinds_magnetogram/converter.py:convert_zdi_to_pfss", "starwinds_magnetogram/pfss_magnetogram.py:evaluate_spherical", "starwinds_magnetogram/zdi_magnetogram.py:ZdiMagnetogram.get_radial_field"]}
{"id": "C29", "title": "Tangential field after PFSS to ZDI conversion", "statement": "The polar and azimuthal fields of the ZDI magnetogram made by convert_pfss_to_zdi equal (mirrored in azimuth, azimuthal sign flipped) the PFSS field at the surface when the source surface is at 3 stellar radii. For the package default 2.5 they differ.", "quantifier": "all single-column coefficient sets with non-negative orders, all non-polar points; counterexample for rss = 2.5", "why_tests_cant": "Function identity; existing tests accept a constant ratio.", "anchors": ["starwinds_magnetogram/converter.py:_beta_inverse_conversion_factor", "starwinds_magnetogram/converter.py:convert_pfss_to_zdi", "starwinds_magnetogram/pfss_magnetogram.py:r_l"]}
{"id": "C30", "title": "PFSS boundary conditions", "statement": "At the star's surface the radial field does not depend on the source surface radius; at and beyond the source surface the polar and azimuthal fields are zero; inside the star all components are zero.", "quantifier": "all coefficient sets, all points, all 0 < r* < rss", "why_tests_cant": "All radii and coefficients.", "anchors": ["starwinds_magnetogram/pfss_magnetogram.py:evaluate_spherical", "starwinds_magnetogram/pfss_magnetogram.py:r_l"]}
{"id": "C31", "title": "PFSS field beyond the source surface", "statement": "For r >= rss the radial field equals (rss/r)^2 times its value at the source surface in the same direction, and the field is continuous there.", "quantifier": "all coefficient sets, all radii and directions", "why_tests_cant": "All radii.", "anchors": ["starwinds_magnetogram/pfss_magnetogram.py:evaluate_spherical"]}
{"id": "C32", "title": "The PFSS field is a potential field without sources", "statement": "Between star and source surface the three components are minus the gradient of one scalar function of (r, polar, azimuth), and that function satisfies Laplace's equation.", "quantifier": "all coefficient sets with non-negative orders, all interior points off the axis", "why_tests_cant": "Differential identity for all degrees and orders.", "anchors": ["starwinds_magnetogram/pfss_magnetogram.py:evaluate_spherical", "starwinds_magnetogram/pfss_magnetogram.py:r_l", "starwinds_magnetogram/pfss_magnetogram.py:theta_lm", "starwinds_magnetogram/pfss_magnetogram.py:phi_lm"]}
{"id": "C33", "title": "The second value of r_l and phi_lm is the derivative of the first", "statement": "r_l(l, r, r0, rss)[1] is the derivative of r_l(...)[0] in r, and phi_lm(...)[1] is the derivative of phi_lm(...)[0] in phi.", "quantifier": "all degrees/orders, all radii > 0, all angles", "why_tests_cant": "Identity over the reals.", "anchors": ["starwinds_magnetogram/pfss_magnetogram.py:r_l", "starwinds_magnetogram/pfss_magnetogram.py:phi_lm"]}
{"id": "C34", "title": "Field evaluation is linear in the coefficients", "statement": "The field of a*x + b*y equals x times the field of a plus y times the field of b, at every point, for ZDI radial/polar/azimuthal and for PFSS. (Violated for the tangential ZDI fields with negative orders, whose lookup depends on the highest order present; holds if each set has no negative orders or orders as high as the other.)", "quantifier": "all coefficient sets with zero default, all real scalars, all points", "why_tests_cant": "Law over all inputs.", "anchors": ["starwinds_magnetogram/pfss_magnetogram.py:evaluate_spherical", "starwinds_magnetogram/zdi_magnetogram.py:ZdiMagnetogram", "starwinds_magnetogram/coefficients.py:add", "starwinds_magnetogram/coefficients.py:multiply"]}
{"id": "C35", "title": "Coordinate conversions are inverse to each other", "statement": "rectangular(spherical(p)) = p for every point p including the origin; spherical(rectangular(r,t,a)) = (r,t,a) for r > 0, 0 < t < pi, -pi < a <= pi; the outputs satisfy r >= 0, 0 <= t <= pi, -pi < a <= pi. At the origin the polar angle is pi/2, not the documented 0.", "quantifier": "all points of space", "why_tests_cant": "All real inputs, including the axis and the branch cut.", "anchors": ["starwinds_magnetogram/coordinate_transforms.py:spherical_coordinates_from_rectangular", "starwinds_magnetogram/coordinate_transforms.py:rectangular_coordinates_from_spherical"]}
{"id": "C36", "title": "The vector transformation matrices are rotations and mutually inverse", "statement": "spherical_to_rectangular and rectangular_to_spherical matrices are transposes of each other, their product is the identity, the determinant is 1, and the first column is the direction of the point.", "quantifier": "all angles", "why_tests_cant": "Identity over the reals.", "anchors": ["starwinds_magnetogram/coordinate_transforms.py:spherical_to_rectangular_transformation_matrix", "starwinds_magnetogram/coordinate_transforms.py:rectangular_to_spherical_transformation_matrix"]}
{"id": "C37", "title": "Cartesian field has the length of the spherical field", "statement": "The Euclidean norm of get_cartesian_field equals get_field_strength, and of evaluate_cartesian's (fx,fy,fz) equals that of (fr,fp,fa); the dot product with the radial direction is the radial component.", "quantifier": "all magnetograms, all points", "why_tests_cant": "All inputs.", "anchors": ["starwinds_magnetogram/zdi_magnetogram.py:ZdiMagnetogram.get_cartesian_field", "starwinds_magnetogram/zdi_magnetogram.py:ZdiMagnetogram.get_field_strength", "starwinds_magnetogram/pfss_magnetogram.py:evaluate_cartesian"]}
{"id": "C38", "title": "Poloidal plus toroidal is the whole field", "statement": "Each component of the field of m equals the sum of those of m.as_poloidal() and m.as_toroidal(); the toroidal part has no radial component; as_poloidal/as_toroidal are idempotent and annihilate each other; m itself is unchanged.", "quantifier": "all ZDI magnetograms, all points", "why_tests_cant": "All inputs.", "anchors": ["starwinds_magnetogram/zdi_magnetogram.py:ZdiMagnetogram.as_poloidal", "starwinds_magnetogram/zdi_magnetogram.py:ZdiMagnetogram.as_toroidal", "starwinds_magnetogram/zdi_magnetogram.py:ZdiMagnetogram.get_all"]}
{"id": "C39", "title": "Tangential ZDI fields are a surface gradient and a surface curl", "statement": "Away from the poles the poloidal tangential field is minus the surface gradient of a scalar, hence has no radial curl; the toroidal tangential field is the rotated gradient of a scalar, hence has zero surface divergence.", "quantifier": "all ZDI magnetograms with non-negative orders, all non-polar points", "why_tests_cant": "Differential identity for all coefficients.", "anchors": ["starwinds_magnetogram/zdi_magnetogram.py:ZdiMagnetogram.get_polar_poloidal_field_new", "starwinds_magnetogram/zdi_magnetogram.py:ZdiMagnetogram.get_azimuthal_poloidal_field", "starwinds_magnetogram/zdi_magnetogram.py:ZdiMagnetogram.get_polar_toroidal_field", "starwinds_magnetogram/zdi_magnetogram.py:ZdiMagnetogram.get_azimuthal_toroidal_field_new"]}
{"id": "C40", "title": "get_c_lm methods agree for m >= 0", "statement": "For 0 <= m <= l both methods of get_c_lm give the same positive number. For m < 0 the alternative method is wrong.", "quantifier": "all degrees and orders", "why_tests_cant": "Unbounded factorial identity.", "anchors": ["starwinds_magnetogram/zdi_magnetogram.py:get_c_lm"]}
{"id": "C41", "title": "Magnetic energy is non-negative and splits", "statement": "Each energy entry is a non-negative real, zero iff the (relevant) coefficient is zero; total = poloidal + toroidal; the reported fractions lie in [0,1], radial <= poloidal and poloidal + toroidal = 1 when the total is positive; scaling all coefficients by real x scales energies by x^2.", "quantifier": "all ZDI magnetograms", "why_tests_cant": "All inputs.", "anchors": ["starwinds_magnetogram/zdi_magnetogram.py:ZdiMagnetogram.energy", "starwinds_magnetogram/zdi_magnetogram.py:ZdiMagnetogram._energy_helper"]}
{"id": "C42", "title": "energy raises unless there is exactly one axial dipole entry", "statement": "energy() completes iff the magnetogram has exactly one (1,0) row; otherwise it raises AssertionError after having filled dest partially.", "quantifier": "all ZDI magnetograms", "why_tests_cant": "All row lists.", "anchors": ["starwinds_magnetogram/zdi_magnetogram.py:ZdiMagnetogram.energy"]}
{"id": "C43", "title": "energy_matrix puts (l, m) at row l and column m + L", "statement": "For distinct pairs with |m| <= l <= L, entry [l, m+L] of each matrix is that coefficient's energy and every other entry is 0; the matrix sum equals the total energy.", "quantifier": "all ZDI magnetograms without repeated pairs", "why_tests_cant": "Index arithmetic for all sizes (negative indexing and roll).", "anchors": ["starwinds_magnetogram/zdi_magnetogram.py:ZdiMagnetogram.energy_matrix"]}
{"id": "C44", "title": "as_restricted and as_dipole keep exactly the requested rows", "statement": "as_restricted keeps the rows whose degree and order lie in the ranges, in order, with unchanged coefficients; as_dipole keeps degree 1 and order >= 0 (negative orders are silently dropped by the default order range); restricting is idempotent and commutes with as_poloidal.", "quantifier": "all ZDI magnetograms, all ranges", "why_tests_cant": "All inputs.", "anchors": ["starwinds_magnetogram/zdi_magnetogram.py:ZdiMagnetogram.as_restricted", "starwinds_magnetogram/zdi_magnetogram.py:ZdiMagnetogram.as_dipole"]}
{"id": "C45", "title": "Associated Legendre values and derivatives", "statement": "calculate_lpmn returns P_l^m(cos t) and its t-derivative for every 0 <= m <= l given. For negative orders it returns a value of another order.", "quantifier": "all lists of degrees and orders, all angles in (0, pi)", "why_tests_cant": "All degrees/orders/angles.", "anchors": ["starwinds_magnetogram/associated_legendre.py:calculate_lpmn"]}
{"id": "C46", "title": "Grid facet areas tile the sphere", "statement": "For increasing corners in [0,pi] x [0,2pi] all facet areas are >= 0 and their sum is (cos first - cos last)*(last az - first az), hence 4 pi for the default grids; facet centres are the midpoints of the corner intervals; the shape is (n_az, n_polar).", "quantifier": "all corner vectors, all grid sizes", "why_tests_cant": "Telescoping sums for all sizes.", "anchors": ["starwinds_magnetogram/geometry.py:ZdiGeometry.areas", "starwinds_magnetogram/geometry.py:ZdiGeometry.centers", "starwinds_magnetogram/geometry.py:ZdiGeometry.__init__"]}
{"id": "C47", "title": "Projected visible area fraction is a cosine between 0 and 1", "statement": "projected_visible_area_fraction(d) lies in [0,1], is max(0, cos angle between d and the facet normal), does not depend on the length of d, and each facet is visible from at most one of d and -d.", "quantifier": "all grids, all non-zero directions", "why_tests_cant": "All inputs.", "anchors": ["starwinds_magnetogram/geometry.py:ZdiGeometry.projected_visible_area_fraction", "starwinds_magnetogram/geometry.py:ZdiGeometry.unit_normals"]}
{"id": "C48", "title": "Longitudinal field is a weighted average", "statement": "When some facet is visible, the longitudinal field at each observer azimuth lies between minimum and maximum of the line-of-sight field over visible facets, its magnitude is at most the maximum field strength, it is linear in the magnetogram, and 2 pi periodic in azimuth.", "quantifier": "all grids, magnetograms, observers", "why_tests_cant": "All inputs.", "anchors": ["starwinds_magnetogram/longitudinal_field.py:get_longitudinal_field_curve"]}
{"id": "C49", "title": "rms^2 = mean^2 + std^2 in numerical_description", "statement": "The identity asserted by numerical_description holds exactly when the areas sum to 4 pi or the mean vanishes; so the assertion never fires (in exact arithmetic) on full-sphere grids, and fires on partial grids.", "quantifier": "all value and area arrays", "why_tests_cant": "All arrays.", "anchors": ["starwinds_magnetogram/geometry.py:numerical_description"]}
{"id": "C50", "title": "Fibonacci points lie on the unit sphere and are evenly spaced in height", "statement": "fibonacci_sphere(n) returns n points with x^2+y^2+z^2 = 1, y strictly increasing in steps 2/n from -1+1/n to 1-1/n, for every random offset; all points are distinct.", "quantifier": "all n >= 1, all random offsets", "why_tests_cant": "All n.", "anchors": ["starwinds_magnetogram/fibonacci_sphere.py:fibonacci_sphere"]}
{"id": "C51", "title": "Parker wind solves the Parker equation on the transonic branch", "statement": "find_parker_analytic(r) > 0 satisfies u^2 - 1 - 2 ln u = 4 ln r + 4(1/r - 1); it is < 1 for r < 1, = 1 at r = 1, > 1 for r > 1, strictly increasing; with all_sols both roots are returned.", "quantifier": "all radii > 0", "why_tests_cant": "All real radii, including the branch switch.", "anchors": ["starwinds_magnetogram/parker_solution.py:AnalyticBase.find_parker_analytic", "starwinds_magnetogram/parker_solution.py:AnalyticBase.parker_lhs", "starwinds_magnetogram/parker_solution.py:AnalyticBase.parker_rhs"]}
{"id": "C52", "title": "Parker mass flux is the same at every radius", "statement": "4 pi r^2 speed(r) density(r) = total_mass_flux for all r >= stellar radius, density(stellar radius) = base_density, speed(radius_sonic) = speed_sonic, and below the stellar radius the values are those at the stellar radius.", "quantifier": "all positive parameters, all radii", "why_tests_cant": "All reals.", "anchors": ["starwinds_magnetogram/parker_solution.py:ParkerSolution.speed", "starwinds_magnetogram/parker_solution.py:ParkerSolution.density", "starwinds_magnetogram/parker_solution.py:ParkerSolution.total_mass_flux"]}
{"id": "C53", "title": "Parker evaluation leaves its argument alone", "statement": "speed(radii) and density(radii) do not modify the caller's array. (Violated: array entries below the stellar radius are overwritten; it holds iff every entry is >= the stellar radius or the argument is a scalar/list.)", "quantifier": "all arguments", "why_tests_cant": "Heap property for all arguments.", "anchors": ["starwinds_magnetogram/parker_solution.py:ParkerSolution.speed", "starwinds_magnetogram/parker_solution.py:ParkerSolution.density"]}
{"id": "C54", "title": "Rotation is linear, composes, and conserves power", "statement": "rotate_magnetogram is linear; the result stores exactly all pairs |m| <= l <= degree_max; rotating by the identity changes no value; rotating by R then S equals rotating by the product; rotating back restores the values; the power sum |c|^2 per degree is unchanged.", "quantifier": "all single or multi-column sets with zero default, all rotations (given that Wigner D matrices are a unitary representation)", "why_tests_cant": "All rotations and degrees.", "anchors": ["starwinds_magnetogram/rotate.py:rotate_magnetogram"]}
{"id": "C55", "title": "Rotation and folding of real fields about the z axis", "statement": "Rotating about the z axis by angle g and evaluating the radial field equals evaluating the original field at a shifted azimuth.", "quantifier": "all coefficient sets, all angles, all points", "why_tests_cant": "All inputs.", "anchors": ["starwinds_magnetogram/rotate.py:rotate_magnetogram", "starwinds_magnetogram/zdi_magnetogram.py:ZdiMagnetogram.get_radial_field"]}
{"id": "C56", "title": "The harmonic cache is transparent", "statement": "Any sequence of spherical_harmonic calls returns the same values with use_cache=True as with use_cache=False on meshgrid inputs, whatever was evicted before. (On non-meshgrid inputs it silently differs; and writing into a returned array corrupts later results.)", "quantifier": "all call sequences, all cache capacities", "why_tests_cant": "History property over all call sequences.", "anchors": ["starwinds_magnetogram/image_converter.py:spherical_harmonic", "starwinds_magnetogram/image_converter.py:_cached_spherical_harmonic"]}
{"id": "C57", "title": "Image analysis index set", "statement": "from_image returns exactly the pairs |m| <= l < lmax (lmax excluded, contrary to its documentation), lmax^2 of them; it is linear in the image; to_image is linear in the coefficients.", "quantifier": "all lmax, images, grids", "why_tests_cant": "All sizes.", "anchors": ["starwinds_magnetogram/image_converter.py:from_image", "starwinds_magnetogram/image_converter.py:to_image", "starwinds_magnetogram/image_converter.py:_indices", "starwinds_magnetogram/converter.py:positive_lm"]}
{"id": "C58", "title": "convert_magnetogram never writes over its input or, unasked, over an existing file", "statement": "When the command writes, the output name differs from the input name as a string; when no output name is given the output name did not exist before and lies in the current directory, and no existing file changes; on any error nothing is written. (The last clause is violated: if the name in the header has a character that the locale cannot encode, the output file has already been emptied or created. Also, another name for the input file is not recognised, and the input is overwritten. Both are proved, with everything that does hold.)", "quantifier": "all file names, all file-system states, all option combinations", "why_tests_cant": "All strings and file-system states.", "anchors": ["starwinds_magnetogram/bin/convert_magnetogram.py:_make_output_filename", "starwinds_magnetogram/bin/convert_magnetogram.py:convert_zdi_to_pfss", "starwinds_magnetogram/bin/convert_magnetogram.py:convert_pfss_to_zdi", "starwinds_magnetogram/bin/convert_magnetogram.py:no_conversion"]}
{"id": "C59", "title": "convert_magnetogram command semantics", "statement": "--no-conversion wins over --pfss-to-zdi; PFSS input with a column count other than one raises IndexError and writes nothing; ZDI input uses only the first column; the coefficients in the output are the converted input coefficients to 7 digits, with correctly rounded products. (Coefficients of negative order are not written; this is proved as the exact range of the output.)", "quantifier": "all option combinations and input files", "why_tests_cant": "All inputs.", "anchors": ["starwinds_magnetogram/bin/convert_magnetogram.py:main", "starwinds_magnetogram/bin/convert_magnetogram.py:no_conversion", "starwinds_magnetogram/bin/convert_magnetogram.py:convert_zdi_to_pfss", "starwinds_magnetogram/bin/convert_magnetogram.py:convert_pfss_to_zdi"]}
{"id": "C60", "title": "Tick marks are symmetric, sorted and labelled one to one", "statement": "generate_major returns equally many values and labels, values strictly increasing, symmetric about 0, all 0 or signed powers of ten with exponents from the requested range; generate_minor is strictly increasing, symmetric and contains every major tick.", "quantifier": "all integer exponent ranges and positive steps", "why_tests_cant": "All ranges.", "anchors": ["starwinds_magnetogram/colorbar_manual_tickmarks.py:generate_major", "starwinds_magnetogram/colorbar_manual_tickmarks.py:generate_minor"]}
{"id": "C61", "title": "tesla_to_gauss shifts exponents and nothing else", "statement": "On a label with an integer exponent in braces the exponent is shifted by the given amount and the rest of the label is unchanged; shifting by a then b equals shifting by a+b; labels without braces are unchanged.", "quantifier": "all label strings, all integer shifts", "why_tests_cant": "All strings.", "anchors": ["starwinds_magnetogram/colorbar_manual_tickmarks.py:tesla_to_gauss"]}
{"id": "C62", "title": "wl_intervals partitions the spectrum", "statement": "The (start, end) index pairs returned cover every sample exactly once and no interval contains a jump above the threshold. (Violated: every interval after the first starts one sample too early, across the jump, and the last sample is excluded; what does hold is stated.)", "quantifier": "all wavelength vectors, all thresholds", "why_tests_cant": "All vectors.", "anchors": ["starwinds_magnetogram/plot_lsd.py:wl_intervals"]}
{"id": "C63", "title": "Energy plot scaling", "statement": "The per-degree energy curve is a partition of the total energy (scaled curve sums to 1, the cumulative curve is non-decreasing and ends at the total); the colour range of the energy matrix plot satisfies vmin <= vmax. (The latter is violated whenever the largest energy is below 1.)", "quantifier": "all energy matrices", "why_tests_cant": "All matrices.", "anchors": ["starwinds_magnetogram/plot_zdi.py:plot_energy_by_degree", "starwinds_magnetogram/plot_zdi.py:_plot_energy"]}
{"id": "C64", "title": "Energy equals the mean square field", "statement": "For a single-column (radial) magnetogram with non-negative orders, the total energy equals the integral of the squared radial field over the unit sphere (Parseval).", "quantifier": "all radial magnetograms with non-negative orders and no repeated pair", "why_tests_cant": "Integral identity for all coefficients.", "anchors": ["starwinds_magnetogram/zdi_magnetogram.py:ZdiMagnetogram.energy", "starwinds_magnetogram/zdi_magnetogram.py:ZdiMagnetogram.get_radial_field"]}
{"id": "C65", "title": "Copies, empty and zero-filled sets", "statement": "copy() returns a set that no public method (has, get, size, degree_max, order_min, default) can tell from the original; empty_like() stores nothing and keeps the default and dtype; zeros_like() stores exactly the same pairs, each holding the default.", "quantifier": "every coefficient set that a program can build", "why_tests_cant": "Must hold for every history of the original set.", "anchors": ["starwinds_magnetogram/coefficients.py:copy", "starwinds_magnetogram/coefficients.py:empty_like", "starwinds_magnetogram/coefficients.py:zeros_like"]}
{"id": "C66", "title": "Analysis is the discrete harmonic projection", "statement": "get_zdi_coeffs returns, for every requested pair (l, m), the sums over the grid points of the field components times the conjugate (vector) spherical harmonics times the area, whatever the grid; the area defaults to the product of the mean steps; the result is linear in the three fields, and shifting all azimuths by a multiplies the coefficients of order m by exp(-i m a). An empty list of pairs raises.", "quantifier": "all grids, sampled fields, areas and lists of distinct pairs with 0 <= m <= l", "why_tests_cant": "Universal over grids, fields and pairs; a sign error that cancels on symmetric test fields goes unnoticed.", "anchors": ["starwinds_magnetogram/converter.py:get_zdi_coeffs", "starwinds_magnetogram/converter.py:convert_latlon_to_zdi_coeffs"]}
{"id": "C67", "title": "Sampling and analysing recovers the magnetogram", "statement": "Sampling the fields of a ZDI magnetogram on a full-sphere latitude-longitude grid and analysing the samples gives coefficients that converge to those of the magnetogram as the polar resolution grows (number of azimuths only needs to exceed the sum of the orders); the magnetogram made of them has in the limit the same radial field everywhere and the same tangential field away from the poles.", "quantifier": "all magnetograms with non-negative orders, all maximal degrees, all sequences of grids", "why_tests_cant": "A limit over all grids and all magnetograms; a test sees one grid and a tolerance.", "anchors": ["starwinds_magnetogram/converter.py:convert_latlon_to_zdi", "starwinds_magnetogram/converter.py:get_zdi_coeffs", "starwinds_magnetogram/zdi_magnetogram.py:ZdiMagnetogram.get_radial_field", "starwinds_magnetogram/geometry.py"]}
{"id": "C68", "title": "Images and coefficients are inverse in the limit", "statement": "from_image(to_image(s, zg), lmax=L) tends to s as the grid is refined, if the degrees of s are below L and there are at least 2L azimuths; more generally the coefficients of finer and finer samplings of a continuous function on the sphere tend to its harmonic coefficients (integrals against conjugate spherical harmonics).", "quantifier": "all coefficient sets (negative orders included), all continuous functions, all sequences of grids", "why_tests_cant": "A limit over grids, for all sets and all continuous functions.", "anchors": ["starwinds_magnetogram/image_converter.py:from_image", "starwinds_magnetogram/image_converter.py:to_image"]}
{"id": "C69", "title": "Rotating coefficients rotates the field", "statement": "For every rotation quaternion R, rotate_magnetogram(s, R) has at each point n of the sphere the radial field that s has at R n. In particular rotate_magnetogram_euler_zyz_deg(s, (a, b, g)) followed by map_to_positive_orders and get_radial_field gives the original field at the point moved by the zyz Euler angles; the set of values on the sphere (hence the extremes) is unchanged, the reversed angles with opposite signs undo the rotation, and the Wigner matrices satisfy the hypothesis of C54 for all rotations.", "quantifier": "all unit quaternions, all Euler angles, all complex coefficient sets with zero default, all degrees and orders, all points", "why_tests_cant": "The tests try a few angles on one magnetogram with tolerances; the claim is an identity (addition theorem of the spherical harmonics) for all rotations, degrees and points.", "anchors": ["starwinds_magnetogram/rotate.py:rotate_magnetogram", "starwinds_magnetogram/rotate.py:rotate_magnetogram_euler_zyz_deg", "starwinds_magnetogram/converter.py:map_to_positive_orders"]}
{"id": "C70", "title": "Extrapolation commutes with rotation", "statement": "Rotating a radial set, folding it to positive orders, converting it with convert_zdi_to_pfss and extrapolating gives the rotated extrapolation of the original as a vector field: evaluate_spherical and evaluate_cartesian of the rotated set at a point are carried by the rotation to those of the original at the image of the point (with the azimuth mirrored, as convert_zdi_to_pfss mirrors it). The field strength and radial component at corresponding points agree.", "quantifier": "all Euler angles, all complex single column sets with nonnegative orders, all star and source surface radii, all distances (inside the star, up to and beyond the source surface), all points off the polar axis", "why_tests_cant": "The tests never combine rotation and extrapolation; the claim is about vectors at every point of space and all rotations.", "anchors": ["starwinds_magnetogram/rotate.py:rotate_magnetogram_euler_zyz_deg", "starwinds_magnetogram/converter.py:map_to_positive_orders", "starwinds_magnetogram/converter.py:convert_zdi_to_pfss", "starwinds_magnetogram/pfss_magnetogram.py:evaluate_spherical", "starwinds_magnetogram/pfss_magnetogram.py:evaluate_cartesian"]}
{"id": "C71", "title": "Rotating a ZDI set rotates its surface vector field", "statement": "For a set with alpha, beta and gamma columns: rotate_magnetogram_euler_zyz_deg, hsplit, map_to_positive_orders on every column, hstack, from_coefficients. get_cartesian_field of the result at a point is carried by the rotation to get_cartesian_field of the original at the image of the point; this covers the radial, the poloidal tangential and the toroidal tangential parts at once.", "quantifier": "all Euler angles, all complex three column sets with nonnegative orders, all iteration orders in hstack, all points off the polar axis", "why_tests_cant": "The tests compare radial fields only, on a few angles; the tangential parts involve derivatives of the harmonics along directions that themselves move.", "anchors": ["starwinds_magnetogram/rotate.py:rotate_magnetogram_euler_zyz_deg", "starwinds_magnetogram/converter.py:map_to_positive_orders", "starwinds_magnetogram/coefficients.py:hsplit", "starwinds_magnetogram/coefficients.py:hstack", "starwinds_magnetogram/zdi_magnetogram.py:get_cartesian_field"]}
{"id": "C72", "title": "Colour scales of the field maps", "statement": "plot_magnetic_field uses a scale symmetric about zero (RdBu_r) exactly when asked to or, by default, when the field has values of both signs, and otherwise viridis from the least to the greatest value; no value is clipped. The three maps of plot_components share one scale with the colour bar drawn beside them; symmetric=True passed to plot_zdi_components makes all maps symmetric; the maps of term='poloidal' and term='toroidal' are the maps of as_poloidal() and as_toroidal().", "quantifier": "all fields, all choices of symmetric, cmap and abs_max, all magnetograms of nonnegative orders, all full sphere grids", "why_tests_cant": "The tests only check that the plotting functions run; the colour limits depend on the signs of all values of three components on a grid.", "anchors": ["starwinds_magnetogram/plots.py:plot_magnetic_field", "starwinds_magnetogram/plots.py:plot_components", "starwinds_magnetogram/plot_zdi.py:plot_zdi_components"]}
{"id": "C73", "title": "Marked extremes and mean of a field map", "statement": "add_extrema marks the greatest and the least value of the field at the (first) facet centre that has it, in degrees; on the map of any getter of the magnetogram the getter evaluated at the marker gives the value in its label, all facet values lie between the two labels, and the text 'abs mean' is the area weighted mean absolute field that numerical_description reports, between the least and the greatest absolute value.", "quantifier": "all fields on all arrays of equal shape; all getters defined off the axis; all full sphere grids", "why_tests_cant": "The tests never look at the markers; the claim is about index arithmetic (argmax, unravel_index) for all shapes and fields.", "anchors": ["starwinds_magnetogram/plots.py:add_extrema", "starwinds_magnetogram/plot_zdi.py:plot_zdi_field"]}
{"id": "C74", "title": "Numbers in legends", "statement": "latex_float turns every finite number into a label that can be read back: sign, decimal mantissa, optional power of ten. The label shows the sign of the number and a nearest decimal with three significant digits, hence is off by half a percent at most; a power of ten is shown exactly when the shown number is nonzero and below 0.0001 or at least 1000; labels keep the order of the numbers; infinities and nan are shown as such.", "quantifier": "all binary64 values", "why_tests_cant": "Rounding, carry into the exponent, the switch to scientific notation and stripping of zeros interact for individual values; a sample does not cover them.", "anchors": ["starwinds_magnetogram/plots.py:latex_float"]}
{"id": "C75", "title": "The energy summary shows the reported shares", "statement": "Each percentage drawn by plot_energy_summary is the corresponding fraction reported by ZdiMagnetogram.energy: poloidal, toroidal, radial and axisymmetric parts of the total energy; dipole, quadrupole, octopole and axisymmetric parts of the poloidal energy; degrees 1 to 3 and the axisymmetric part of the toroidal energy, whose panel is empty exactly without toroidal energy. The summary can be drawn for every magnetogram whose energy can be computed.", "quantifier": "all magnetograms of nonnegative degrees", "why_tests_cant": "The tests only check that a figure is produced for one magnetogram; the shares depend on all coefficients, and the failures occur for whole families of magnetograms.", "anchors": ["starwinds_magnetogram/plot_zdi.py:plot_energy_summary", "starwinds_magnetogram/zdi_magnetogram.py:energy"]}
{"id": "C76", "title": "The plot command shows the magnetogram in the file", "statement": "sw-plot-magnetogram reads a magnetogram file and draws, for the plot types radial, polar, azimuthal (or azimuth) and strength, the values of that component of the magnetic field with the coefficients in the file, on the default grid of 64 by 129 facets, with a title that names the star and the component and the symbol of the component in the legend. With --type pfss the field is that of the potential field extrapolation at the surface. Unknown types and plot types raise ValueError. The program changes nothing but the output file; what is saved is what is shown.", "quantifier": "all magnetogram files with finite coefficients of nonnegative order and one to three columns, all command lines, all file systems", "why_tests_cant": "The tests run the program on one file and check that an image exists; the image is not compared with the field, and the labels are not looked at.", "anchors": ["starwinds_magnetogram/bin/plot_magnetogram.py:main", "starwinds_magnetogram/bin/plot_magnetogram.py:guess_star_name_from_filename", "starwinds_magnetogram/plot_zdi.py:plot_zdi_field"]}
{"id": "C77", "title": "The LSD plot shows the columns asked for", "statement": "plot_lsd_profile and sw-plot-lsd read a table (header lines skipped, columns separated by white space) and draw, for each of the parameters asked for (I, V, N, in the order given), that parameter's column with its error against the velocity in its own axes, labelled with the parameter. Which tables and parameters can be drawn is stated exactly; the program changes nothing but the output file. (Violated: with a single parameter the program raises TypeError although the library function can draw it.)", "quantifier": "all texts, all parameter strings, all figures, all file systems", "why_tests_cant": "The tests draw one file with one choice of parameters and do not look at what is drawn.", "anchors": ["starwinds_magnetogram/plot_lsd.py:plot_lsd_profile", "starwinds_magnetogram/bin/plot_lsd.py:main"]}
{"id": "C78", "title": "The stack of LSD profiles shows each profile on common limits", "statement": "plot_lsd_stack draws the circular polarisation of profile j with its error in axes j under name j. With y_lim='same' all axes have the same limits: the least lower and the greatest upper of the limits they would have otherwise; with limits given all axes have these; the setting changes nothing else. (Violated: a stack of one profile raises TypeError unless the current figure happens to have one axes.)", "quantifier": "all stacks of tables, all names, all settings, all current figures, all automatic limits", "why_tests_cant": "Depends on the number of profiles and on the figure that happens to be current.", "anchors": ["starwinds_magnetogram/plot_lsd.py:plot_lsd_stack"]}
{"id": "C79", "title": "The spectrum plot shows the spectrum", "statement": "plot_spectrum draws each of the five columns against the wavelength, every sample once, coloured evenly from 0 to 1 within each order; the range shown is the right way round and leaves out at most 3 percent of the samples (rounded up) at each end. (Violated: the last sample is missing and the sample before each jump is drawn twice.)", "quantifier": "all tables of finite numbers", "why_tests_cant": "Samples drawn twice or not at all cannot be seen in one image; percentiles interpolate between samples.", "anchors": ["starwinds_magnetogram/plot_lsd.py:plot_spectrum"]}
{"id": "C80", "title": "A slice shows the extrapolated field in its plane", "statement": "normal_plane puts the points of a slice into the plane through the centre of the star with the given normal, keeping distances; plot_slice draws, at every point of a grid that fills the square of half width rmax and avoids the centre, the radial field as colour and the two components of the field in the plane as stream lines at that same point, with the star and the source surface as contours; the colour scale is symmetric and holds all values shown. Which arguments can be drawn is stated exactly. (Violated: the normals y and z, which normal_plane knows, raise ValueError, because the stream lines always use the y and z components; and for the normal x the horizontal axis, which shows y, is labelled x.)", "quantifier": "all coefficient sets, normals, ranges, stellar and source surface radii", "why_tests_cant": "The tests draw the default slice and do not look at the figure.", "anchors": ["starwinds_magnetogram/plot_pfss.py:plot_slice", "starwinds_magnetogram/pfss_magnetogram.py:normal_plane"]}
{"id": "C81", "title": "The stream trace plot shows the surface field", "statement": "plot_streamtraces shows at every facet the radial field of evaluate_spherical at the stellar surface between the corners of that facet, on a symmetric colour scale that is as small as possible and clips nothing, with zero contours of the three components and stream lines whose local vector is (azimuthal, polar) at the centre and whose width is 3 times the tangential strength over its maximum. It can be drawn exactly on grids of at least 2 by 2 facets with evenly spaced centres, so on every full-sphere grid. The legend gives the width that belongs to each strength, and stream lines follow the field. (Violated: widths in the legend are relative to the largest tick, not the largest strength, so they agree only if these coincide; and the lines are drawn along (B_phi, B_theta) without the factor 1/sin(theta) of the map, so they follow the field only at the equator or where one component vanishes.)", "quantifier": "all coefficient sets, all grids, all tick locators, all curves on the sphere", "why_tests_cant": "The tests only check that a figure is returned; a wrong width or direction cannot be seen without knowing the field.", "anchors": ["starwinds_magnetogram/plot_pfss.py:plot_streamtraces", "starwinds_magnetogram/plots.py:plot_equirectangular"]}
{"id": "C82", "title": "The superseded polar field approximates the exact one", "statement": "get_polar_poloidal_field, which differentiates with finite differences over the columns of its arguments, and get_cartesian_poloidal_field, which is built on it, are defined for the centres of a grid exactly if there are at least two facets in polar and one in azimuthal direction; they agree with get_polar_poloidal_field_new and with the cartesian field of as_poloidal up to an error that vanishes with the distance of the polar corners, exactly for degrees 0 and 1 of order 0, and between the first and last column for degree 2 of even order. (Violated: next to the poles the error does not vanish. For degree 1 and order 1 the value in the first column is cos h / (1 + cos h), less than half, of the exact one, h being the distance of the corners, on every equidistant grid. With dplm_method \"roll\" the first column is computed from the difference between the two poles, which for a quadrupole is zero.)", "quantifier": "all magnetograms with orders from 0 to the degree, all grids, all distances from the poles, all error bounds", "why_tests_cant": "A test compares the two methods for one magnetogram on one grid with a tolerance; it says nothing on whether the error vanishes under refinement and hides the fixed relative error next to the poles.", "anchors": ["starwinds_magnetogram/zdi_magnetogram.py:get_polar_poloidal_field", "starwinds_magnetogram/zdi_magnetogram.py:_dplm", "starwinds_magnetogram/zdi_magnetogram.py:get_cartesian_poloidal_field"]}
{"id": "C83", "title": "The old derivative of the colatitude functions", "statement": "theta_lm returns the Schmidt semi-normalised function of the colatitude, and calculate_all_theta(scipy=False) is defined for the same degrees and orders as the default and has the same values. The derivative theta_lm returns is, for points from which a step of 1/100 does not lead beyond the south pole, the derivative at a point less than 1/100 further south times a factor between 1 and 1.0001. (Violated elsewhere: the derivative is zero for all degrees and orders at both poles and at the distance 1/200 from the south pole, where that of degree 1 and order 1 is close to 1 and -1.)", "quantifier": "all degrees, all orders from 0 to the degree, all colatitudes", "why_tests_cant": "A test compares the difference quotient with the derivative at some points with a tolerance; it shows neither the bound for all degrees nor the points near the south pole where the reflected function is differentiated.", "anchors": ["starwinds_magnetogram/pfss_magnetogram.py:theta_lm", "starwinds_magnetogram/pfss_magnetogram.py:calculate_all_theta"]}
{"id": "C84", "title": "Random coefficient sets", "statement": "coefficients.noise returns a well-formed set with the pairs of degrees degree_min to degree_max and orders 0 to the degree. Each coefficient is one draw of noise_fn divided by 2 l + 1 and by l ** beta; every pair has its own draw, taken in order of degree, then order. From the same draws, changing beta only scales the degrees and raising degree_max only adds degrees. If there is a degree the set can be used as a potential field. (Violated: with degree 0 and beta other than 0 there is no usable set.)", "quantifier": "all noise functions, all ranges of degrees, all exponents beta", "why_tests_cant": "The function is random: a test sees one sequence of draws and can at most check statistics; which draw goes where and the scaling for all degrees and exponents are statements on all sequences.", "anchors": ["starwinds_magnetogram/coefficients.py:noise"]}
{"id": "C85", "title": "The stream traces of a ZDI magnetogram", "statement": "plot_zdi.plot_streamtraces draws on exactly the grids of at least two by two facets with evenly spaced centres, the default grid among them, for all magnetograms of non-negative orders. Every facet shows the strength of the field, on a colour scale from zero and never with a black contour; the stream lines have the azimuthal and polar component at the centres and are as wide as the tangential field is strong, from 0 to 3; the ticks divide the axes evenly. (Violated: the lines in the legend have widths relative to the largest tick, which are those of the stream lines only if that is the largest strength; without a tangential field the widths are not numbers; the direction of the lines is as in C81.)", "quantifier": "all magnetograms of non-negative orders, all grids, all tick locators", "why_tests_cant": "A test can look at one figure for one magnetogram on one grid; it cannot tell on which grids the figure can be drawn nor that every facet and line of every figure is right.", "anchors": ["starwinds_magnetogram/plot_zdi.py:plot_streamtraces", "starwinds_magnetogram/plots.py:plot_equirectangular"]}
{"id": "C86", "title": "Tick marks on a symmetric logarithmic colour bar", "statement": "auto_symlog_tickmarks sets the ticks exactly if linthresh and vmax are positive and the axis is 'x' or 'y'. On the horizontal axis the major ticks are zero and plus and minus the powers of ten from the decade of linthresh to that of vmax, each with the label that denotes it and at the place the norm gives it between the limits of the axis; the minor ticks are the multiples of powers of ten that lie between the limits; with an increasing norm both are in increasing order. (Violated: major ticks are not restricted to the limits and leave them unless vmin is below all the negative powers; with axis='y' the limits of the horizontal axis are used, which is right only if the axes have equal limits; where the coordinate along the bar is the value itself the ticks are right only where the norm is linear.)", "quantifier": "all colour bars, all positive steps, all axis arguments", "why_tests_cant": "A test can set the ticks of some colour bars; whether ticks and labels belong together for all limits and norms, and for which limits ticks fall outside, needs a proof over all of them.", "anchors": ["starwinds_magnetogram/colorbar_manual_tickmarks.py:auto_symlog_tickmarks", "starwinds_magnetogram/colorbar_manual_tickmarks.py:fully_manual_tickmarks"]}
{"id": "C87", "title": "The plot of the longitudinal field", "statement": "plot_longitudinal_field_curve draws exactly if there is an azimuth, the field is defined at the facet centres and from every azimuth some facet is visible; for magnetograms of non-negative orders this is so on all full-sphere grids of at least two by three facets. The curve has the longitudinal field at each azimuth, in degrees, and what is returned is the same in radians; the dashed line is at the mean of the values; the vertical axis is symmetric, with a margin of a tenth of the largest magnitude, which some point has, and is degenerate only for a curve that is zero throughout. (Violated: with the default azimuths the line is not the mean over a rotation because 0 and 360 degrees are both counted; it is so only if the value at 0 happens to be the mean.)", "quantifier": "all magnetograms, all grids, all observers, all lists of azimuths", "why_tests_cant": "A test plots one curve; when a plot fails for want of visible facets, and that the line is off by a definite fraction for all curves, are statements about all grids and fields.", "anchors": ["starwinds_magnetogram/longitudinal_field.py:plot_longitudinal_field_curve", "starwinds_magnetogram/longitudinal_field.py:plot_style"]}
{"id": "C88", "title": "The mean longitudinal field over a rotation", "statement": "On a full-sphere grid with N facets in azimuth (N at least 3, at least two bands) the mean over the N distinct default azimuths of get_longitudinal_field_curve depends only on the coefficients whose order is a multiple of N. If all orders are below N it is the longitudinal field of the axisymmetric part alone, which is the same from all default azimuths; if no order is a multiple of N it is zero.", "quantifier": "all full-sphere grids, all magnetograms of non-negative orders, all inclinations", "why_tests_cant": "A test on some magnetogram shows a mean that is small up to rounding; that the non-axisymmetric orders cancel exactly for every magnetogram and inclination needs the symmetry of the grid and orthogonality over all azimuths.", "anchors": ["starwinds_magnetogram/longitudinal_field.py:get_longitudinal_field_curve"]}
{"id": "C89", "title": "The figure of energy matrices", "statement": "plot_energy_matrix draws, for a magnetogram with orders within their degrees and no pair twice, exactly if the types that get axes are known words and there is at least one; without negative orders, exactly if in addition no coefficient of negative order has energy above the tolerance. Each panel has its type as title and shows at row l and column m + L (with negative orders) or m (without) the energy of degree l and order m, zero where there is no coefficient, with the colour scale of the energies shown; a tick on a column is labelled with its order. (Violated: if fewer axes than types are passed the last types are left out silently; passing none raises UnboundLocalError; ticks between columns are labelled with the next order towards zero, so that two ticks on either side of order 0 are both labelled 0.)", "quantifier": "all magnetograms, all lists of types, all numbers of axes", "why_tests_cant": "A test looks at some figures; that every entry is in the column its label says, for all sets of coefficients, and exactly which calls draw, needs a proof over all of them.", "anchors": ["starwinds_magnetogram/plot_zdi.py:plot_energy_matrix", "starwinds_magnetogram/plot_zdi.py:_plot_energy"]}
{"id": "C90", "title": "The numerical description in the limit of fine grids", "statement": "On full-sphere grids that become finer in both directions, for every named component: the mean reported by numerical_description tends to the mean over the sphere of the magnitude of the component, the rms to the root of its mean square, the standard deviation to the root of the mean square minus the squared mean, and the maximum to the largest magnitude on the sphere. The mean square of the field strength is the total energy of the coefficients over 4 pi and that of the radial field the energy of its coefficients over 4 pi, so that the numerical and the analytical path agree in the limit.", "quantifier": "all magnetograms with orders 0 to l, all components, all sequences of grids with both counts tending to infinity", "why_tests_cant": "A test compares numbers on one or two grids up to a tolerance; that the difference vanishes under refinement for all coefficients is a limit statement.", "anchors": ["starwinds_magnetogram/geometry.py:numerical_description", "starwinds_magnetogram/zdi_magnetogram.py:energy"]}
{"id": "C91", "title": "The longitudinal field in the limit of fine grids", "statement": "On full-sphere grids that become finer in both directions the visible area summed over the facets tends to pi, the area of the disc of a star of radius one, from every direction, and the longitudinal field of get_longitudinal_field_curve tends to the mean over the visible disc, by projected area, of the component of the cartesian field towards the observer.", "quantifier": "all magnetograms with orders 0 to l, all observer directions, all sequences of grids with both counts tending to infinity", "why_tests_cant": "A test compares some curves with some reference up to a tolerance; convergence for all coefficients and directions is a limit statement, and the integrand has a kink at the limb.", "anchors": ["starwinds_magnetogram/longitudinal_field.py:get_longitudinal_field_curve", "starwinds_magnetogram/geometry.py:projected_visible_area_fraction"]}
{"id": "C92", "title": "What the longitudinal field shows of each coefficient", "statement": "In the limit of fine grids the longitudinal field seen from colatitude t and azimuth x is the radial field at (t, x) of the magnetogram whose radial coefficients are k_l (alpha - l beta / 2) with k_l = 2 int_0^1 mu^2 P_l(mu) dmu: k_0 = 2/3, k_1 = 1/2, k_(l+2) = (2 - l)/(l + 5) k_l. Only the degrees 0, 2 and the odd ones show; the toroidal field never shows. The mean square over all directions is the sum of the squares of these coefficients, so a magnetogram is silent from every direction exactly if nothing of any of its rows is seen.", "quantifier": "all magnetograms with orders 0 to l, all observer directions including the poles, all sequences of grids with both counts tending to infinity", "why_tests_cant": "That a toroidal or even-degree field has no longitudinal signal from any direction, whatever the coefficients, is an identity over a continuum of directions; numerical cancellation on some grids only suggests it.", "anchors": ["starwinds_magnetogram/longitudinal_field.py:get_longitudinal_field_curve", "starwinds_magnetogram/zdi_magnetogram.py:ZdiMagnetogram"]}
{"id": "C93", "title": "Corners in space: flat facets, their normals and areas", "statement": "corners_cartesian gives points of the unit sphere; on a full-sphere grid the mesh is closed (first and last meridian coincide, as do all corners at a pole). The four corners of a facet lie in one plane. unit_normals is perpendicular to that plane exactly for facets centred on the equator. The area of the flat facet is areas() times sin(d)/d cos(h) sqrt(1 - cos(t)^2 sin(d)^2) with half widths d, h and centre t, hence always smaller. On full-sphere grids with at least three azimuthal corners areas times normals add up to zero, so opposite observers see the same area; with two azimuthal corners an observer may see nothing.", "quantifier": "all increasing corner arrays with polar angles in [0, pi]; all directions; all corner counts", "why_tests_cant": "The existing test only plots the mesh. Planarity, the exact set of facets with perpendicular normals and a strict inequality hold for all grids, which samples with tolerances cannot show.", "anchors": ["starwinds_magnetogram/geometry.py:corners_cartesian", "starwinds_magnetogram/geometry.py:areas", "starwinds_magnetogram/geometry.py:unit_normals"]}
{"id": "C94", "title": "What the command lines of the scripts mean", "statement": "For sw-convert-magnetogram, sw-plot-magnetogram and sw-plot-lsd: a command line on which options are written in full, abbreviated unambiguously, with an attached, separate or '=' argument, or several short ones as one, is accepted if and only if no option asks for help or the version, integers are integers, and the files stand in one place (input, then output if any). Then the script gets exactly what was asked: an option counts wherever it stands and of several on the same thing the last one decides. A misspelled long option or an unknown letter among short options is never ignored and an ambiguous abbreviation never guessed. After '--' everything is a file, also what begins with a dash. Without '--' the files are arguments that do not look like options. When the parser ends the process, no file is touched. (Violated: options cannot be given everywhere; an option between input and output is refused.)", "quantifier": "all command lines (lists of texts) of each of the three scripts; all contents of the disk", "why_tests_cant": "The scripts are tested on a few fixed command lines. The space of command lines is infinite: abbreviations, positions and combinations interact in argparse, and that a misspelling is never taken for a file or ignored is a statement on all of them.", "anchors": ["starwinds_magnetogram/bin/generic_arguments.py:add", "starwinds_magnetogram/bin/generic_arguments.py:handle", "starwinds_magnetogram/bin/convert_magnetogram.py:main", "starwinds_magnetogram/bin/plot_magnetogram.py:main", "starwinds_magnetogram/bin/plot_lsd.py:main"]}
{"id": "C95", "title": "What the printed forms of coefficient sets and ZDI magnetograms show", "statement": "str(c) of two sets of coefficients is the same text if and only if both are empty with defaults that print alike, or neither is empty and they hold the same (l, m) pairs with values that print alike: every stored pair is shown, the order of insertion is not, and this also holds when numpy breaks long arrays over several lines. When arrays fit on a line the text has a headline and one line per pair, sorted by degree and order. The text of non-empty sets determines the stored values if and only if numpy's printing of arrays is injective. repr(c) shows exactly the printed entries in dict order. str of a ZDI magnetogram shows exactly the rows up to the end of the shortest of its five arrays. (Violated: sets with the same contents have the same repr.)", "quantifier": "all sets of coefficients with arrays of any length, all printers of arrays whose continuation lines begin with a space (str) or whose text has one closing parenthesis, at the end (repr); all five arrays of a ZDI magnetogram, of equal or different lengths", "why_tests_cant": "Printing a few sets cannot show that no two different sets share a text, nor that line breaks in numpy's text never make one set look like another.", "anchors": ["starwinds_magnetogram/coefficients.py:__str__", "starwinds_magnetogram/coefficients.py:__repr__", "starwinds_magnetogram/zdi_magnetogram.py:__str__"]}
{"id": "C96", "title": "The points of a Fibonacci sphere are spread evenly", "statement": "As the number of points grows, the average of any continuous function over the points of fibonacci_sphere converges to its mean over the unit sphere (weighted by area). Every spherical cap, about any direction and of any size, gets in the limit the fraction of the points that it has of the area, with or without its boundary. Given any angle, for all large numbers of points there is no direction without a point within that angle. All this holds with randomize=False and with randomize=True, whatever random.random() returns at each size.", "quantifier": "all continuous functions on the sphere, all caps, all sequences of draws in [0, 1); the limit of large numbers of points", "why_tests_cant": "A statement on a limit and on all continuous functions. Tests look at a fixed number of points and cannot tell an evenly spread spiral from one with an increment that is a rational multiple of a turn, which leaves spokes empty.", "anchors": ["starwinds_magnetogram/fibonacci_sphere.py:fibonacci_sphere"]}
{"id": "C97", "title": "The lines on the component maps mean what they seem to mean", "statement": "In the figure of the three components the solid line of a map is where the field changes sign, and there is one exactly if the field has both signs. The dashed lines of all maps are at the evenly spaced levels of the colour bar, and no level is left out where a map has values on both sides. The markers on the bar are the extrema of the components and lie on the bar. (Violated: with symmetric=True a field of one sign gets a solid line at some other level; if the azimuthal field has one sign, the levels stop below the bar and markers can lie outside it, as for every axially symmetric poloidal field.)", "quantifier": "all arrays of finite values, all numbers of bins of the bar; ranges wider than a part in 1e14 where stated", "why_tests_cant": "Tests check that a figure is made; where the lines are depends on all values through a search for a step, and the failures depend on the sign of one component.", "anchors": ["starwinds_magnetogram/plots.py:plot_components", "starwinds_magnetogram/plots.py:plot_magnetic_field", "starwinds_magnetogram/plots.py:add_contours", "starwinds_magnetogram/plots.py:place_colorbar_axis_right"]}
{"id": "C98", "title": "The PFSS field is the only potential field that fits the surface", "statement": "Between the star and the source surface the cartesian field that evaluate_cartesian returns away from the axis is minus the gradient of a function that is harmonic on the whole closed shell, the axis and both spheres included, and zero on the source surface. It is the only one: any function harmonic on the closed shell, constant on the source surface and with the returned radial component as minus its radial derivative on the surface of the star has the returned field as minus its gradient. Hence two sets of coefficients whose radial fields agree at the surface give the same field everywhere.", "quantifier": "all sets of radial coefficients of any degrees, all radii of star and source surface, all harmonic functions on the shell, all points off the axis", "why_tests_cant": "Uniqueness is a statement on all harmonic functions; tests compare single field values with references that use the same series.", "anchors": ["starwinds_magnetogram/pfss_magnetogram.py:evaluate_spherical", "starwinds_magnetogram/pfss_magnetogram.py:evaluate_cartesian"]}
{"id": "C99", "title": "The extrapolated field is strongest at the surface of the star", "statement": "If the strength of the field that evaluate_spherical returns at the surface of the star is at most M away from the poles, it is at most M (r0/r)^2 at every radius r outside, beyond the source surface too. If the radial component at the surface lies between two bounds of any signs, it lies between these bounds times (r0/r)^2 at every radius; so with one polarity at the surface the field points the same way everywhere. The bounds are reached by the field of a charge.", "quantifier": "all sets of radial coefficients of any degrees, all radii of star and source surface, all bounds, all points off the axis", "why_tests_cant": "A maximum principle over a continuum of points and all coefficient sets; the single terms of the series each decrease, but sums of terms of different degrees can grow outward along a line of sight.", "anchors": ["starwinds_magnetogram/pfss_magnetogram.py:evaluate_spherical", "starwinds_magnetogram/pfss_magnetogram.py:r_l"]}
{"id": "C100", "title": "Evaluation on arrays of points is pointwise; sets with several columns", "statement": "evaluate_spherical on arrays of points of any shape returns three arrays of that shape whose entries are the field at the single points; the radii may be an array that numpy stretches to the shape of the angles (a number, a row, axes of length one), and numbers are arrays of one point. evaluate_cartesian returns the spherical and cartesian components pointwise in the shape of the coordinates. Angles of different shapes and radii that cannot be stretched to the shape of the angles are refused. A set with several columns is refused unless the last axis of the points has one entry per column; in that case, against the expectation that a point gets the field of the set, the points are silently shared out: a point with last index j gets the field of column j alone, so the same point given twice gets two different fields.", "quantifier": "all sets of radial coefficients, any number of columns, arrays of any number of dimensions and lengths (also empty), all radii of star and source surface", "why_tests_cant": "Broadcasting depends on the shapes of four arrays; the tests use one or two shapes and sets with one column.", "anchors": ["starwinds_magnetogram/pfss_magnetogram.py:evaluate_spherical", "starwinds_magnetogram/pfss_magnetogram.py:evaluate_cartesian", "starwinds_magnetogram/pfss_magnetogram.py:calculate_all_theta"]}
{"id": "C101", "title": "ZDI field components on arrays of points", "statement": "The field getters of ZdiMagnetogram on arrays of points of any shape return an array of the shape of the azimuths whose entries are the component at the single points; the polar angles may be an array that numpy stretches to the shape of the azimuths. The same for the sums, the field strength and, for equal shapes, the cartesian field. Magnetograms whose polar or azimuthal component cannot be evaluated (no rows, orders out of the table) raise the same exception on every array as at single points. Polar angles that cannot be stretched to the azimuths are refused even when numpy could broadcast the two arrays: one polar angle with many azimuths is accepted, one azimuth with many polar angles, or a column of polar angles with a row of azimuths, is not. The cartesian field refuses arrays of different shapes, the cartesian toroidal field always raises.", "quantifier": "all magnetograms (any degrees and orders, also none), arrays of any number of dimensions and lengths", "why_tests_cant": "The getters mix two ways of evaluation (a loop with in-place addition, and an additional last axis); whether both agree with the single-point values depends on all pairs of shapes.", "anchors": ["starwinds_magnetogram/zdi_magnetogram.py:get_radial_field", "starwinds_magnetogram/zdi_magnetogram.py:get_polar_poloidal_field_new", "starwinds_magnetogram/zdi_magnetogram.py:get_azimuthal_toroidal_field_new", "starwinds_magnetogram/zdi_magnetogram.py:get_field_strength", "starwinds_magnetogram/zdi_magnetogram.py:_cartesian_from_spherical_helper", "starwinds_magnetogram/associated_legendre.py:calculate_lpmn"]}
{"id": "C102", "title": "The field determines the coefficients", "statement": "Two ZDI magnetograms show the same radial field at all points away from the axis exactly if their alpha coefficients agree (rows of the same degree and order added up, imaginary parts of order 0 left out); they show the same polar and azimuthal field exactly if the beta and the gamma coefficients of all degrees but 0 agree in this sense. The polar component alone does not suffice: every poloidal dipole of order 1 has the polar component of a toroidal quadrupole. Two coefficient sets give the same PFSS radial field on one sphere on or above the surface, even beyond the source surface, exactly if their coefficients agree in this sense, and then all three components agree at every point.", "quantifier": "all magnetograms with orders between 0 and the degree, all coefficient sets with nonnegative orders, all radii", "why_tests_cant": "A comparison of two fields at sample points cannot show that no other coefficients give the same field; the imaginary parts of order 0 are stored, written and read although nothing depends on them.", "anchors": ["starwinds_magnetogram/zdi_magnetogram.py:get_radial_field", "starwinds_magnetogram/zdi_magnetogram.py:get_polar_field", "starwinds_magnetogram/zdi_magnetogram.py:get_azimuthal_field", "starwinds_magnetogram/pfss_magnetogram.py:evaluate_spherical"]}
{"id": "C103", "title": "Flux and mean square of the extrapolated radial field", "statement": "The flux of the PFSS field through every sphere on or above the surface is 4 pi r0^2 times the real part of the coefficient of degree 0; without that coefficient there is no net flux anywhere. The integral of the squared radial field over a sphere is the sum over the coefficients of 4 pi/(2l+1) times the squared fall-off of the degree times the squared coefficient; r^4 times it never grows with the radius, falls strictly below the source surface unless only degree 0 shows, and is constant beyond. The share of higher degrees never grows with the radius.", "quantifier": "all coefficient sets with nonnegative orders, all stellar and source surface radii, all radii", "why_tests_cant": "Integrals over spheres at all radii; monotonicity in the radius for all degrees at once.", "anchors": ["starwinds_magnetogram/pfss_magnetogram.py:evaluate_spherical", "starwinds_magnetogram/pfss_magnetogram.py:r_l", "starwinds_magnetogram/pfss_magnetogram.py:theta_lm"]}
{"id": "C104", "title": "The unsigned flux never grows with the radius", "statement": "The unsigned flux of the PFSS field, r^2 times the integral of the magnitude of the radial component over the sphere of radius r, never grows with r; it is the same through all spheres beyond the source surface (the open flux), where it is at most the unsigned flux through the stellar surface and at least the magnitude of the net flux.", "quantifier": "all coefficient sets with nonnegative orders, all stellar and source surface radii, all pairs of radii on or above the surface", "why_tests_cant": "A statement about integrals of the magnitude of the field for all coefficient sets and all pairs of radii; the magnitude is not a finite sum of harmonics.", "anchors": ["starwinds_magnetogram/pfss_magnetogram.py:evaluate_spherical", "starwinds_magnetogram/pfss_magnetogram.py:r_l"]}
{"id": "C105", "title": "Degrees and orders the double precision normalisation covers", "statement": "For orders 0 <= m <= l with l + m <= 170 (and (l, m) not (170, 0)) get_c_lm in double precision is within 1e-5 of the exact normalisation, and so is the scaling of the PFSS functions for l + m <= 170. Every coefficient with l + m >= 171 and l - m <= 169 gets the factor zero: the radial field is bit for bit that of the magnetogram without it, and get_zdi_coeffs fits it as zero. One coefficient with l - m >= 170, even a zero one, makes the radial field not a number everywhere; with l - m >= 171 calculate_all_theta (and with it evaluate_spherical) fails an assert. For negative orders the factor is within 1e-5 while l - m <= 169; from l - m >= 171 it is infinite or not a number, and one such coefficient makes the radial field not a number everywhere. The other method of get_c_lm, which no caller uses, is right for order zero at every degree.", "quantifier": "all degrees and orders in the stated ranges, all coefficient values, all points, all square roots and factorials of the stated accuracy, all summation orders in the analysis", "why_tests_cant": "The failures are silent and start at degree 86; tests use low degrees and compare with the same code.", "anchors": ["starwinds_magnetogram/zdi_magnetogram.py:get_c_lm", "starwinds_magnetogram/zdi_magnetogram.py:get_radial_poloidal_field", "starwinds_magnetogram/pfss_magnetogram.py:calculate_all_theta", "starwinds_magnetogram/converter.py:get_zdi_coeffs"]}
{"id": "C106", "title": "What the field functions return on the axis", "statement": "At the north pole (polar angle exactly zero) get_azimuthal_poloidal_field, get_polar_toroidal_field, get_azimuthal_field and get_polar_field return nan for every magnetogram with at least one row; at the south pole the first two return zero whatever the coefficients, provided the products formed on the way are finite. A PFSS set with a coefficient of order 1 has a nan polar component and nan cartesian components everywhere on the positive z axis on or above the surface, beyond the source surface too, and non-finite ones on the negative z axis; without order 1 the polar and azimuthal components on the positive z axis are zero as long as no product overflows. In exact arithmetic the cartesian field has a limit at every point of the axis between the surface and the source surface.", "quantifier": "all rows, all values of the coefficients and of the other factors, all radii on or above the surface", "why_tests_cant": "Holds for all coefficient sets; tests avoid the poles because grids of cell centres do.", "anchors": ["starwinds_magnetogram/zdi_magnetogram.py:get_azimuthal_poloidal_field", "starwinds_magnetogram/zdi_magnetogram.py:get_polar_toroidal_field", "starwinds_magnetogram/pfss_magnetogram.py:evaluate_spherical", "starwinds_magnetogram/pfss_magnetogram.py:evaluate_cartesian", "starwinds_magnetogram/associated_legendre.py:calculate_lpmn"]}
{"id": "C107", "title": "What the printed form of a Parker solution shows", "statement": "str of a Parker solution can be read back as four numbers, in the order temperature, base density, stellar radius, stellar mass; each has the sign of the parameter and is a nearest decimal with two significant digits, so that it is off by five percent at most; infinite parameters and nan are shown as such. Two solutions print the same exactly if these numbers are the same; then corresponding finite parameters have the same sign and differ by at most a twentieth of their sum. (Violated: different solutions print differently.)", "quantifier": "all parameters that are numbers: finite, infinite or nan", "why_tests_cant": "Printing a few stars cannot show that no parameter is ever misread from the text: rounding up to the next power of ten, the change of notation at 100 and 0.0001 and the padding are special cases.", "anchors": ["starwinds_magnetogram/parker_solution.py:ParkerSolution.__str__"]}
{"id": "C108", "title": "Arithmetic of coefficient sets in double precision", "statement": "For complex128 sets with finite entries, as long as the exact result does not exceed the largest double: every real and imaginary part of a + b, a - b and s * x (real x) is a double nearest to the exact sum, difference or product, exact whenever that is a double; a sum is off by at most 2^-53 of itself however small it is; a + b and b + a agree bit for bit (also with inf and nan); a - a is zero; (a + b) - b differs from a by at most 2^-52 (|a| + |a + b|). s / y has a relative error of at most 2^-51 in the normal range, is nearest if 1/y is a double, raises ZeroDivisionError for zero and OverflowError for |y| <= 2^-1024. (Violated: sums associate; subtracting undoes adding; s / y is the nearest double.)", "quantifier": "all complex128 sets of any number of columns, all iteration orders of the key union, all finite doubles, every reciprocal function accurate to one unit in the last place", "why_tests_cant": "Tests compare a few sets with a tolerance; rounding, subnormal sums, overflow of the reciprocal and the exact cases depend on the particular doubles.", "anchors": ["starwinds_magnetogram/coefficients.py:add", "starwinds_magnetogram/coefficients.py:multiply", "starwinds_magnetogram/coefficients.py:Coefficients.__sub__", "starwinds_magnetogram/coefficients.py:Coefficients.__truediv__"]}
{"id": "C109", "title": "Spherical coordinates of points in double precision", "statement": "spherical_coordinates_from_rectangular on doubles: if every point has a coordinate of magnitude at least 2^-511 and none above 2^510, no assert fails; the radius is not smaller than any coordinate and has a relative error of at most 2^-49; the cosine of the polar angle is right to 2^-48 and the polar angle to 2^-22. Points with |x|, |y| <= 2^-28 |z| get the radius |z| and the polar angle of the axis itself (0 for z > 0), so that a PFSS field with order 1 is nan there. (Violated outside that range: a coordinate of 2^512 or more gives an infinite radius and the polar angle pi/2 wherever the point is; within 2^-538 of the origin the radius is 0 and the polar angle pi/2; a single point near the axis with 2^-537 < |z| <= 1.2 2^-537 makes the call raise AssertionError for all points.)", "quantifier": "all lists of points with finite double coordinates; every square root rounded to nearest, arc cosine accurate to 2^-50, arctan2 that is a number on finite arguments", "why_tests_cant": "Whether z / r can exceed 1 after three roundings, and where underflow makes it do so, depends on all bits of the three coordinates.", "anchors": ["starwinds_magnetogram/coordinate_transforms.py:spherical_coordinates_from_rectangular"]}
{"id": "C110", "title": "To spherical coordinates and back in double precision", "statement": "For points with a coordinate of magnitude at least 2^-511 and none above 2^510, rectangular_coordinates_from_spherical(*spherical_coordinates_from_rectangular(x, y, z)) raises nothing; z comes back with an error of at most 2^-47 of the distance from the origin, x and y with an error of at most 2^-21 of the distance. (Violated: the points come back to machine accuracy. A point with |x|, |y| <= 2^-28 z comes back exactly on the axis, at the same height.)", "quantifier": "all lists of such points; every numpy whose root is correctly rounded, whose arc cosine, sine and cosine are right to 2^-50 and whose arctan2 points in the right direction to 2^-49", "why_tests_cant": "The loss depends on how close a point is to the axis; tests take points in general position.", "anchors": ["starwinds_magnetogram/coordinate_transforms.py:spherical_coordinates_from_rectangular", "starwinds_magnetogram/coordinate_transforms.py:rectangular_coordinates_from_spherical"]}
{"id": "C111", "title": "What energy() prints", "statement": "For a magnetogram with exactly one axial dipole coefficient, energy() without dest prints fifteen lines: the total to three digits, thirteen percentages with their words, and a remark. Each percentage is the share of the energies its words name to 0.05 per cent points, or nan% if the whole is zero; the radial one is at most the poloidal one and none of these is above 100.0%. With show_fractions the lines are preceded by a heading and one line per coefficient from which degree, order and the three parts can be read to a millionth, and these sum to 1. (Violated: for every magnetogram all lines are printed; if there is not exactly one axial dipole coefficient, or a sum is not a number, eleven are, and then an AssertionError is raised. Violated: the poloidal and the toroidal percentage sum to 100.0; they do within 0.1.)", "quantifier": "all magnetograms with non-negative degrees and total energy up to 2^1000; all doubles that the sums may have within a relative error of 1e-9", "why_tests_cant": "Rounding in quotients and in the decimal text depends on the values; the existing tests do not read the report.", "anchors": ["starwinds_magnetogram/zdi_magnetogram.py:ZdiMagnetogram.energy"]}
{"id": "C112", "title": "Accuracy of the ZDI field components in double precision", "statement": "At a point off the axis, the radial, polar, azimuthal and cartesian components returned by ZdiMagnetogram in double precision are finite and differ from the exact sums over the same coefficients by at most ((1 + 1e-5)(1 + eps)^k (1 + 2^-52)^(n+14) - 1) times the sum over the n rows of the sizes of the terms, where eps bounds the errors of the Legendre functions, exponentials, sines and cosines and k is at most 6; with eps up to 1e-6 that is 2e-5 of the sizes.", "quantifier": "all magnetograms with up to 2^20 rows of degrees for which c_lm is right (C105) and coefficients up to 2^300, all points with |sin(theta)| >= 2^-100, all orders of summation in np.sum", "why_tests_cant": "Rounding errors depend on all values and on the order of summation; tests compare a few values with a tolerance chosen by hand.", "anchors": ["starwinds_magnetogram/zdi_magnetogram.py:ZdiMagnetogram.get_radial_field", "starwinds_magnetogram/zdi_magnetogram.py:ZdiMagnetogram.get_polar_field", "starwinds_magnetogram/zdi_magnetogram.py:ZdiMagnetogram.get_azimuthal_field", "starwinds_magnetogram/zdi_magnetogram.py:ZdiMagnetogram.get_cartesian_field"]}
{"id": "C113", "title": "When arithmetic on coefficient sets is refused", "statement": "A set whose entries have n values can be multiplied by an array exactly if the array has n values or one, or the set is empty; otherwise ValueError if n is not 1 and AssertionError if n is 1. Sets are added and multiplied exactly if their entries have equally many values (AssertionError otherwise, even for empty sets). isclose of sets with different numbers of values raises ValueError if neither number is 1, raises AssertionError if the first is 1, and compares every value with the single one if the second is 1. get raises AssertionError unless degree and order are both python ints, and never raises if they are.", "quantifier": "all reachable coefficient sets, all arrays, all iteration orders of the key set", "why_tests_cant": "Which combinations of lengths and contents raise what is a statement about all of them; tests use equal lengths.", "anchors": ["starwinds_magnetogram/coefficients.py:multiply", "starwinds_magnetogram/coefficients.py:add", "starwinds_magnetogram/coefficients.py:isclose"]}
{"id": "C114", "title": "How large a field can be at a point", "statement": "The radial field of a ZDI magnetogram of degree at most L is, at every point, at most (L+1)/(2 sqrt(pi)) times the root of the sum of |alpha|^2; the polar and azimuthal fields off the axis satisfy the same bound with |beta|^2+|gamma|^2, and the field strength the bound with |alpha|^2+2|beta|^2+2|gamma|^2. The constant field attains the bound. The squares of the functions returned by calculate_all_theta for all orders of a degree l sum to 1, those of their polar and azimuthal derivatives to l(l+1). The PFSS radial field is at most twice, and the tangential fields at most once, the sum of |c| (r0/r')^(l+2) (r'/r)^2, where r' is the smaller of r and the source surface radius.", "quantifier": "all magnetograms with distinct pairs and nonnegative orders, all degrees, all points off the axis (every point for the radial field), all radii outside the star", "why_tests_cant": "A bound over all points, degrees and coefficient sets; it rests on the addition theorem of spherical harmonics, which no sample of points shows.", "anchors": ["starwinds_magnetogram/zdi_magnetogram.py:get_radial_field", "starwinds_magnetogram/zdi_magnetogram.py:get_polar_field", "starwinds_magnetogram/zdi_magnetogram.py:get_azimuthal_field", "starwinds_magnetogram/pfss_magnetogram.py:evaluate_spherical", "starwinds_magnetogram/pfss_magnetogram.py:calculate_all_theta"]}
{"id": "C115", "title": "How accurate the PFSS field is in double precision", "statement": "Inside the star evaluate_spherical returns exactly zero. Outside the star, off the axis, the assertions of evaluate_spherical and calculate_all_theta hold and the three components are finite and within K times the size of the terms of the exact field, where the size is the sum of 4 |c| (r0/r')^(l+2) times (r'/r)^2 (divided by |sin theta| for the azimuthal component), r' is the smaller of r and the source surface radius, K = (1+1e-5)(1+eps)^10(1+2^-52)^(n+2071) - 1, n is the number of coefficients and eps bounds the errors of powers, Legendre functions, sines and cosines. The cartesian components of evaluate_cartesian satisfy the same kind of bound. For eps at most 1e-9 and at most 2^20 coefficients, K is at most 2e-5.", "quantifier": "all sets of at most 2^20 coefficients with 0 <= m <= l and l + m <= 170 and values up to 2^300, all radii between 2^-50 and 2^50, all points off the axis, all libraries meeting the stated accuracy", "why_tests_cant": "Rounding errors depend on every input and accumulate over the loop; a test compares a few points with another floating-point result.", "anchors": ["starwinds_magnetogram/pfss_magnetogram.py:evaluate_spherical", "starwinds_magnetogram/pfss_magnetogram.py:evaluate_cartesian", "starwinds_magnetogram/pfss_magnetogram.py:r_l", "starwinds_magnetogram/pfss_magnetogram.py:phi_lm", "starwinds_magnetogram/pfss_magnetogram.py:calculate_all_theta"]}
{"id": "C116", "title": "Tangential field on spheres and magnetic energy of the PFSS field", "statement": "The squares of the tangential field and of the field strength that evaluate_spherical returns, integrated over a sphere around the star, are sums over the coefficients (no interference between coefficients). On every sphere the mean square of the tangential field is at most L/(L+1) times that of the radial field, L the largest degree. The squared field strength integrated over the volume between star and source surface is 4 pi r0^3 times the sum of |c|^2 (1 - q)/((2l+1)(l+1+l q)) with q = (r0/rss)^(2l+1); it grows with rss, never exceeds the value for the potential field without a source surface and tends to it. Beyond the source surface the volume out to R adds rss^3 (1 - rss/R) times the integrated square of the radial field on the source surface.", "quantifier": "all sets of coefficients with 0 <= m <= l, all radii of star, source surface and sphere", "why_tests_cant": "Integrals over spheres and volumes for all coefficients and radii; a test sums a grid for one set.", "anchors": ["starwinds_magnetogram/pfss_magnetogram.py:evaluate_spherical", "starwinds_magnetogram/pfss_magnetogram.py:r_l", "starwinds_magnetogram/pfss_magnetogram.py:calculate_all_theta"]}
{"id": "C117", "title": "Magnetic energies of a ZDI magnetogram in double precision", "statement": "energy and _energy_helper compute in binary64 complex numbers. The helper returns real numbers whenever the parts of the coefficients are finite and not above 2^510, and complex nan whenever one part is 2^512 or more. Each energy is not negative and has a relative error of at most 2^-49 (coefficients of order 0 real); an imaginary part in order 0 spoils at most the fraction 2^-50 of the sum of the squares. In whatever order numpy adds up to a million coefficients, all entries stored in dest have the keys, the order and, to 1e-9, the values of exact arithmetic, nan where the whole is zero; the same call completes or raises AssertionError as in exact arithmetic. The printed report and table show the shares of the coefficients themselves. The radial share never exceeds the poloidal, poloidal and toroidal shares never exceed 1 and add up to 1 within 2^-51.", "quantifier": "all lists of up to a million coefficients with parts zero or from 2^-200 to 2^200 (2^-500 to 2^500 for single energies), all orders of summation", "why_tests_cant": "Rounding errors over all double inputs and all summation orders; a test compares a few sums with a tolerance.", "anchors": ["starwinds_magnetogram/zdi_magnetogram.py:energy", "starwinds_magnetogram/zdi_magnetogram.py:_energy_helper"]}
{"id": "C118", "title": "Accuracy of a converted file, from text to text", "statement": "The three conversion factors, computed in double precision as in converter.py, are within 1e-13 (relative) of the exact ones for all degrees up to 2^62-1 and all orders. A file with a degree of 2^63 or more is refused with TypeError and nothing is written; otherwise the conversion cannot fail. Every number in a file written by convert_magnetogram is within 5.001e-7 (relative) of the exact factor times the number in the input file; converting a ZDI file to PFSS and that file back gives the radial column again within 1.001e-6, the tangential column of the potential field to the same accuracy, and a third column of zeros.", "quantifier": "all input files with degrees up to 2^62-1 and parts that are zero or between 2^-900 and 2^900 (2^-800 and 2^800 there and back), all square roots, reciprocals and powers correct to a few units in the last place", "why_tests_cant": "Rounding errors of the factors, the products, the decimals written and the decimals read, for every file.", "anchors": ["starwinds_magnetogram/converter.py:forward_conversion_factor", "starwinds_magnetogram/converter.py:_beta_inverse_conversion_factor", "starwinds_magnetogram/bin/convert_magnetogram.py:main"]}
{"id": "C119", "title": "Fibonacci points in double precision", "statement": "For up to 2^40 points, randomised or not, fibonacci_sphere succeeds in double precision: no rounded height leaves the sphere, so math.sqrt is never given a negative number. All coordinates are finite, x^2+y^2+z^2 is 1 to within 2^-46, the heights are those of the exact formula to within 2^-49 and strictly increase, so the points are distinct. Without randomisation every coordinate is within n 2^-45 of the exact formula, with it within n 2^-44 of the formula for the drawn offset.", "quantifier": "all numbers of points from 1 to 2^40, all values that random.random() may return, all functions sqrt, pow, sin, cos of the stated accuracy", "why_tests_cant": "The height of the last point is close to 1 for large numbers of points, and rounding could make the argument of the square root negative for some of them; the points of a run are only compared with the formula for a few sizes.", "anchors": ["starwinds_magnetogram/fibonacci_sphere.py:fibonacci_sphere"]}
{"id": "C120", "title": "Comparing coefficient sets in double precision", "statement": "allclose in double precision: if it says True, every pair of numbers differs by at most atol + rtol*|y| up to a factor 1+2^-47 (plus 2^-1000); if they all differ by less than (1-2^-47) times that, it says True. A set is close to itself unless it has a nan and equal_nan is not set. Where the second set has an infinite part the first must equal it, without tolerance for the other part. A complex set written to a file and read back, if everything fits in the window, is allclose to the original with default tolerances, in both orders; so is the radial column after a conversion to PFSS and back by convert_magnetogram. Violated for huge numbers: finite numbers whose absolute value overflows are close to everything that is not nan.", "quantifier": "all complex sets whose numbers are doubles (the second with parts up to 2^1000 where sizes matter), all finite non-negative tolerances, all orders in which the union of the keys is visited, all hypot accurate to a few units in the last place", "why_tests_cant": "allclose is what the project's tests use to compare sets; whether its answer means what it says for all numbers, including the rounding of its own tolerance, cannot be tested with itself.", "anchors": ["starwinds_magnetogram/coefficients.py:allclose", "starwinds_magnetogram/coefficients.py:isclose", "starwinds_magnetogram/bin/convert_magnetogram.py:main"]}
{"id": "C121", "title": "The Parker wind obeys the equation of motion", "statement": "ParkerSolution.speed and .density, as functions of the radius outside the star, are differentiable everywhere, also through the sonic point; the speed has a positive and the density a negative derivative; and v v' = -a^2 rho'/rho - G M/r^2 with a^2 = 2 k T/m_p. The Bernoulli constant v^2/2 + a^2 log(rho) - G M/r is the same at all radii of a call. At G M m_p/(4 k T), if outside the star, the speed is a. Every speed from the surface speed on is reached at exactly one radius.", "quantifier": "all stars with positive parameters, all positive constants, all arrays of radii", "why_tests_cant": "A derivative identity at every radius for every star; the tests compare a few values of the dimensionless solution.", "anchors": ["starwinds_magnetogram/parker_solution.py:ParkerSolution.speed", "starwinds_magnetogram/parker_solution.py:ParkerSolution.density", "starwinds_magnetogram/parker_solution.py:ParkerSolution.__init__"]}
{"id": "C122", "title": "How the Parker wind depends on the star", "statement": "Multiplying base_density by k leaves the speeds as they are and multiplies densities and total_mass_flux by k. Multiplying stellar_mass, stellar_radius and all radii by k leaves speeds and densities as they are and multiplies the mass flux by k^2. A hotter star has a faster wind at every radius, nowhere a thinner one, and a larger mass flux; a heavier star a slower wind, nowhere a denser one, and a smaller mass flux; a larger star of the same mass the same speed outside of it, a higher density and a larger mass flux. The density is never above that of the atmosphere at rest with the same base, and inside the sonic point at least exp(-1/2) times that. Far out speed/(2 a sqrt(log(r/r_sonic))) tends to 1, with explicit bounds on both sides.", "quantifier": "all stars with positive parameters, all positive constants, all arrays of radii of floats", "why_tests_cant": "Comparisons between infinitely many stars at every radius, and a limit; a test compares two stars at a few radii.", "anchors": ["starwinds_magnetogram/parker_solution.py:ParkerSolution.speed", "starwinds_magnetogram/parker_solution.py:ParkerSolution.density", "starwinds_magnetogram/parker_solution.py:ParkerSolution.total_mass_flux"]}
{"id": "C123", "title": "The Parker solution in double precision", "statement": "For every float radius r in sonic radii with 1/128 <= r <= 2^250 that is at least 1e-6 away from 1, find_parker_analytic returns a positive float (not a complex number) that satisfies the Parker equation up to (|log r| + 1/r + 3)/2^47 plus 2(u^2+1) times the relative error of lambertw, lies on the right side of the sonic speed and near the exact speed. For r <= 1/200 the exponential function underflows: the speed is zero although the exact one is positive, so for a star that small the density at the surface is nan and the density at the sonic point is zero. At r = 1 the argument of lambertw is below -1/e, where lambertw has no real value.", "quantifier": "all floats in the ranges; all log, exp, lambertw and sqrt with the stated accuracies", "why_tests_cant": "There are about 10^18 radii and the libm and scipy versions differ; a test compares a few radii on one machine.", "anchors": ["starwinds_magnetogram/parker_solution.py:find_parker_analytic", "starwinds_magnetogram/parker_solution.py:parker_rhs", "starwinds_magnetogram/parker_solution.py:ParkerSolution.speed", "starwinds_magnetogram/parker_solution.py:ParkerSolution.density"]}
{"id": "C124", "title": "The attributes of the Parker wind and conservation of mass in double precision", "statement": "radius_sonic is good to a relative error of 2^-49 and speed_sonic to 2^-48 for parameters and constants from 2^-110 to 2^110. speed is a positive float near speed_sonic times the exact dimensionless speed. density is base_density (R/r)^2 v_surface/v up to 2^-47; total_mass_flux is 4 pi R^2 base_density v_surface up to 2^-47, whatever rounding did to radius_sonic and speed_sonic; and 4 pi r^2 density v agrees with total_mass_flux at every radius up to 2^-45.", "quantifier": "all floats in the ranges; all square roots, squares and inverse squares good to 2^-50", "why_tests_cant": "Rounding errors of all combinations of parameters; a test compares a few numbers with a tolerance.", "anchors": ["starwinds_magnetogram/parker_solution.py:ParkerSolution.__init__", "starwinds_magnetogram/parker_solution.py:ParkerSolution.speed", "starwinds_magnetogram/parker_solution.py:ParkerSolution.density", "starwinds_magnetogram/parker_solution.py:ParkerSolution.total_mass_flux"]}
{"id": "C125", "title": "numerical_description in double precision never trips over its own assertion", "statement": "ZdiGeometry(n, k) gives corners that start at exactly 0, increase, end at exactly np.pi and 2*np.pi and are right to 2^-47; counts <= 0 raise ValueError, an azimuth count alone TypeError. The areas of the facets are never negative, each is right up to rounding, and together they are 4 pi up to 8 parts in a million. For every field of up to 2^50 on such a grid of up to 2^24 facets the assertion rms^2 = mean^2 + std^2 inside describe holds, whatever the order of summation of np.sum; all ten entries are reported in a fixed order; the maximum is the largest magnitude, the mean is right to 2^-26, the mean square to 2^-25 and the mean square deviation to 2^-25 of itself plus 16 mean^2. A nan or an infinity among the values never reaches the report: AssertionError.", "quantifier": "all n and k from 2 to 2^20 with at most 2^24 facets; all finite values up to 2^50; all orders of summation; all cosines and roots good to 2^-50", "why_tests_cant": "The assertion compares sums of rounded terms over all facets; a test sees a few grids and fields, not all values, grids and orders of summation.", "anchors": ["starwinds_magnetogram/geometry.py:ZdiGeometry.__init__", "starwinds_magnetogram/geometry.py:ZdiGeometry.areas", "starwinds_magnetogram/geometry.py:numerical_description"]}
{"id": "C126", "title": "The longitudinal field in double precision is the average over the visible area", "statement": "For every grid over the sphere (corners from 0 to np.pi and 2*np.pi) with a finite cartesian field at the centres, get_longitudinal_field_curve returns one number per azimuth. Where the observer sees an area V of at least 2^-10, the number is finite and within M(2^-22 + 2^-26/V) of the average of the field along the line of sight weighted with the projected area seen, M being a bound on the components, whatever the order of summation; so it lies between the smallest and the largest component along the line of sight up to M/2^15. Where every facet faces away it is nan: with ZdiGeometry(2, 2) and the azimuth 0, the first default one, this happens for any field. On the grids ZdiGeometry(n, k) with n >= 3 and k >= 4 (the default one included) every observer sees an area of at least 1, so the whole curve is finite and right to M/2^21. Without azimuths the curve has k entries, the i-th being the average seen from the azimuth 2 pi i/(k - 1) up to M/2^20; the first and the last, a full turn apart, agree up to M/2^19.", "quantifier": "all grids of up to 2^24 facets; all fields up to 2^50; all observer angles up to 8 radians; all orders of summation; all sines, cosines and roots good to 2^-50", "why_tests_cant": "The terms have both signs and the denominator may nearly vanish; a test sees a few grids, fields and directions.", "anchors": ["starwinds_magnetogram/longitudinal_field.py:get_longitudinal_field_curve", "starwinds_magnetogram/geometry.py:ZdiGeometry.projected_visible_area_fraction", "starwinds_magnetogram/geometry.py:ZdiGeometry.centers", "starwinds_magnetogram/geometry.py:ZdiGeometry.unit_normals"]}
{"id": "C127", "title": "Vectors keep direction and length between spherical and cartesian components in double precision", "statement": "For finite angles of at most 8 radians the entries of spherical_to_rectangular_transformation_matrix are finite and within 2^-48 of the unit vectors of growing radius, polar angle and azimuth, and rectangular_to_spherical_transformation_matrix is its transpose number for number. For components of magnitude at most M (up to 2^50) the cartesian vector of _cartesian_from_spherical_helper (get_cartesian_field) is within M/2^45 of the exact one, its squared length within M^2/2^40 of that of the components, and the second matrix takes it back to the components within M/2^41, whatever the order of the sums in the matrix product. Arrays whose sizes differ from the polar angles are refused with AssertionError, except azimuths (ValueError), of which a single one stands for all points. The longitudinal field curve of a field given by its spherical components is the average over the area seen up to rounding.", "quantifier": "all finite angles up to 8 radians; all finite components up to 2^50; all numbers of points; all orders of summation, fused or not; all sines and cosines good to 2^-50", "why_tests_cant": "Rounding differs from point to point and between matrix product implementations; a test sees a few points on one machine.", "anchors": ["starwinds_magnetogram/coordinate_transforms.py:spherical_to_rectangular_transformation_matrix", "starwinds_magnetogram/coordinate_transforms.py:rectangular_to_spherical_transformation_matrix", "starwinds_magnetogram/zdi_magnetogram.py:_cartesian_from_spherical_helper", "starwinds_magnetogram/longitudinal_field.py:get_longitudinal_field_curve"]}
{"id": "C128", "title": "Folding negative orders in double precision keeps the field up to rounding", "statement": "For every complex128 set with one column and finite numbers of at most 2^490 map_to_positive_orders raises nothing and stores exactly the pairs 0 <= m <= l <= degree_max, all finite. Order 0 is copied bit by bit. The number at a positive order is within B/2^41 + 2^-489 of the coefficient plus (-1)^m times the conjugate of that of the opposite order, B being the largest part of the two. The radial field of the result is at every point within (degree_max+1)^3 (M/2^41 + 2^-489) of that of the set, M being the largest part of all. Outside that range it can fail: where the sum of the two coefficients is above 2^514, which a double holds easily, the result is infinite and no exception is raised.", "quantifier": "all sets, degrees and orders; all finite numbers up to 2^490 (2^990 for the failure); all points of the sphere; all C libraries with sines, cosines, roots and angles good to rounding", "why_tests_cant": "The way through modulus and phase rounds ten times per coefficient with library functions that differ between machines; a test compares a few coefficients with a tolerance and never gets near the range where squares overflow.", "anchors": ["starwinds_magnetogram/converter.py:map_to_positive_orders", "starwinds_magnetogram/converter.py:collect_cosines"]}
{"id": "C129", "title": "Rotation in double precision turns the field up to rounding", "statement": "For every complex128 set with finite numbers of at most M <= 2^900 and degree_max < 2^19, and matrix elements within eta <= 1/2 of elements of modulus at most 1, rotate_magnetogram raises nothing, stores exactly the pairs |m| <= l <= degree_max with finite numbers, and each number is within (2l+1)^2 (2 M eta + M/2^47 + 2^-990) of the exact sum. With the documented Wigner elements of any rotation the radial field of the result is at every point within 8 (degree_max+1)^5 (2 M eta + M/2^47 + 2^-990) of the field of the set at the moved point; folding the negative orders afterwards keeps this up to 8 (degree_max+1)^5 (2 M eta + M/2^39 + 2^-480). Sets that are not complex are refused with a TypeError.", "quantifier": "all rotations, sets, degrees, orders and points of the sphere; all matrix elements within any eta <= 1/2 of the documented ones; all C libraries good to rounding for the fold", "why_tests_cant": "The error depends on the degree, the size of the coefficients and the accuracy of the external elements; a test turns one set by one angle with a tolerance. A bound for all rotations and degrees shows which accuracy of the elements is needed.", "anchors": ["starwinds_magnetogram/rotate.py:rotate_magnetogram", "starwinds_magnetogram/converter.py:map_to_positive_orders"]}
{"id": "C130", "title": "Images to coefficients and back in double precision agree with the midpoint integrals up to rounding", "statement": "On every grid whose corners run over the sphere at least 2^-20 apart: for every complex set with one column of N finite numbers of at most M <= 2^800 and harmonics within eta <= 1/4, to_image raises nothing and every pixel is finite and within 8 N (degree_max+1) (M+2^-900) (eta + N 2^-50 + 2^-46) of the sum of coefficients times harmonics at the centre of the facet. For every image of n <= 2^24 finite numbers of at most M on such a grid, from_image raises nothing, stores exactly |m| <= l < lmax with finite numbers, each within 80 (l+1) (M+2^-900) (eta + n 2^-50 + 2^-41) of the midpoint integral of the image against the conjugate harmonic. Reading back an image made from a set gives the midpoint integrals of the exact function of the set up to 600 (l+1) (K+2^-900) (eta + (n+N) 2^-50 + 2^-41), K = N (degree_max+1)(M+2^-900). Without a grid, from_image makes one that fits the image.", "quantifier": "all grids, images, sets, degrees and orders within the stated sizes; all sph_harm within any eta <= 1/4 of the harmonics; all sines good to 2^-50; all orders of summation of np.sum", "why_tests_cant": "The rounding error depends on the size of the image, the degree, the library and the order in which np.sum adds; a test sees one image on one machine. The bound separates rounding from the error of the midpoint rule for all of them.", "anchors": ["starwinds_magnetogram/image_converter.py:from_image", "starwinds_magnetogram/image_converter.py:to_image", "starwinds_magnetogram/image_converter.py:spherical_harmonic", "starwinds_magnetogram/image_converter.py:_deltas"]}
{"id": "C131", "title": "How accurately an image gives a coefficient set back, in double precision", "statement": "Make the image of a set with to_image on any grid over the sphere whose steps are at most h, and read it back with from_image, all in double precision: nothing is raised, exactly the pairs |m| <= l < lmax are stored, and each number differs from that of the set (zero if not stored) by at most 2 N M ((l+1)(degree_max+1))^2 (51 h + 2^-36) plus the rounding error of C130. ZdiGeometry(n, k) has polar steps of at most 4/(n-1) and azimuthal steps of at most 7/(k-1).", "quantifier": "all sets with one column of N <= 2^24 finite numbers of at most M <= 2^750, all degrees below 2^20, all grids with at most 2^24 facets, all harmonics within eta <= 1/4, all orders of summation", "why_tests_cant": "C68 gives the limit of infinitely fine grids in exact arithmetic, a test gives one set on one grid. This gives the error on every grid as the code computes it, so the resolution needed for a wanted accuracy can be read off.", "anchors": ["starwinds_magnetogram/image_converter.py:from_image", "starwinds_magnetogram/image_converter.py:to_image", "starwinds_magnetogram/geometry.py:ZdiGeometry.__init__"]}
{"id": "C132", "title": "energy_matrix in double precision, also when a coefficient overflows", "statement": "When |m| <= l for all rows, energy_matrix completes whatever the numbers are (infinities and nan included), with the largest degree L. Entry [l, m+L] of the three matrices holds the energies of the last row with that pair: right up to the fraction 2^-48 when its parts are zero or between 2^-500 and 2^500 (order 0 real), infinite or nan when a part is 2^512 or more (nan unless it is a radial coefficient of order 0); all other entries are 0. One number that is too large leaves the other pairs alone, although energy() goes on with complex numbers for all of them. Without rows, or with negative degrees only, ValueError is raised.", "quantifier": "all lists of rows, all doubles including infinities and nan", "why_tests_cant": "Rounding, overflow, real_if_close and the placement of the entries for all sizes and values at once; repeated pairs and mixed real and complex energies are not tested.", "anchors": ["starwinds_magnetogram/zdi_magnetogram.py:ZdiMagnetogram.energy_matrix", "starwinds_magnetogram/zdi_magnetogram.py:ZdiMagnetogram._energy_helper"]}
{"id": "C133", "title": "energy with a coefficient that overflows ends in an exception", "statement": "If one part of one coefficient is 2^512 or more in magnitude, infinite or nan, energy(dest=d) raises AssertionError: all 41 names up to its first assertion have been stored in d, and the total energy among them is complex with a nan imaginary part. energy() without destination raises ValueError (a complex number has no % format) after printing only the total energy, or the table and the total energy with show_fractions. When all energies are real, both behave as in C117.", "quantifier": "all magnetograms with such a coefficient, all other doubles, all orders of summation, any complex division and hypot", "why_tests_cant": "The exception depends on nan passing through the products, the closeness test of np.real_if_close, sums in any order and np.allclose, for every value of all other coefficients.", "anchors": ["starwinds_magnetogram/zdi_magnetogram.py:ZdiMagnetogram.energy", "starwinds_magnetogram/zdi_magnetogram.py:ZdiMagnetogram._energy_helper"]}
{"id": "C134", "title": "the energies by degree in double precision", "statement": "plot_energy_by_degree(zc) in doubles never fails its own assertions on a field with energy: for |m| <= l <= 700 and coefficients that are zero or neither tiny nor huge, the six curves show each degree's share of the energy of the matrix of C132, and the share of all degrees up to it, to 1e-8, and, with no pair twice and real axisymmetric coefficients, of the exact energies to 2e-8. With all energies zero, or with a coefficient of 2^512 or more, infinite or nan, it raises AssertionError. With scaled=False it never raises.", "quantifier": "all magnetograms (repeated pairs included), all orders in which np.sum adds up", "why_tests_cant": "The assertions compare sums of up to 10^6 rounded quotients with 1; rounding accumulates over all entries and depends on the order of summation, and one overflow decides the outcome for all other values.", "anchors": ["starwinds_magnetogram/plot_zdi.py:plot_energy_by_degree", "starwinds_magnetogram/zdi_magnetogram.py:ZdiMagnetogram.energy_matrix"]}
{"id": "C135", "title": "the colour scale of the figure of energies in double precision", "statement": "_plot_energy with negative_orders=True computes in doubles, for |m| <= l and coefficients that are zero or neither tiny nor huge, vmax = the largest energy shown and vmin = its inverse, or 0.1 and 1 if no energy is above 1e-8; with negative_orders=False the same for the orders from 0, and AssertionError exactly if an energy of negative order is above 1e-8. With no pair twice and real axisymmetric coefficients vmax is the largest exact energy of a pair up to a relative error of 2^-48. It never fails on an empty selection. If a coefficient in the energy shown overflows (other than a radial one of order 0) vmax is nan when some energy is above 0, and ValueError otherwise. (Violated: vmin <= vmax fails exactly if the largest energy is above 1e-8 and below 1.)", "quantifier": "all magnetograms (repeated pairs included), all four types, every inverse that is on the right side of 1", "why_tests_cant": "All doubles, including energies so small that rounding or the tolerance decides, and the exact boundary at 1.", "anchors": ["starwinds_magnetogram/plot_zdi.py:_plot_energy", "starwinds_magnetogram/zdi_magnetogram.py:ZdiMagnetogram.energy_matrix"]}
