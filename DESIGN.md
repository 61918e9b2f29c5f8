# Design of the formal model of starwinds-magnetogram

The code under study is the python package in `/repo/starwinds_magnetogram` (read as text, never run).
The model and the proofs are Lean 4 (4.33.0) with Mathlib; the Lake project is `/verif/lean`.

## Layout

| Module (under `lean/Verif/`) | Contents |
|---|---|
| `Py.*` | Python-level basics: error values, index arguments, strings, number syntax and formatting |
| `Model.*` | function-by-function transcriptions of the code; every definition cites file and lines |
| `Lemmas.*` | helper lemmas, not part of any claim |
| `Spec.*` | small independent specifications in which the properties are stated (abstract maps, spherical harmonics by Rodrigues' formula, ...) |
| `Props.*` | the property theorems (`C01_...`), each followed by a concrete non-trivial instance of its hypotheses |

`MANIFEST.json` maps each property of `properties.jsonl` to its theorems.
`COVERAGE.md` (written by `tools/coverage.py` from the citations) lists every function of the package with the definitions that
model it.

## Trusted base

* Lean's kernel (also replayed by `vcheck`).
* Axioms: at most `propext`, `Classical.choice`, `Quot.sound` for every theorem (checked with `#print axioms`
  and by `vcheck`). No axiom is added, no `sorry`, no `native_decide`, no `bv_decide`.
* The transcription of the python text into Lean definitions (the comments cite the lines) and the reading of
  numpy/scipy semantics given below.

## What is modelled and what is not

* **Numbers.** Analytic code (fields, geometry, conversion, Parker wind) is modelled over exact real and complex
  numbers; IEEE rounding, overflow and NaN are not modelled there, except for the normalisation factors, whose factorials
  overflow from degree 86 on (`Model.FloatRange`, C105), for what is evaluated on the axis
  (`Model.FloatAxis`, C106), for the ZDI field off the axis (`Model.FloatField`, C112), for the PFSS field (`Model.FloatPfss`, C115), for the energies
  (`Model.FloatEnergy`, C117), for the conversion factors (`Model.FloatFactors`, C118), for the Fibonacci points (`Model.FloatFib`, C119), for comparisons of sets (`Model.FloatClose`, C120), for the Parker wind (`Model.FloatParker`, C123, C124), for the
  averages over the sphere (`Model.FloatDescribe`, C125), for the visible disc and the longitudinal curve (`Model.FloatVisible`, `Model.FloatTurn`, C126), for vectors and projections
  (`Model.FloatVector`, C127), for folding and rotation of sets (`Model.FloatFold`, `Model.FloatRotate`, C128, C129), for image conversion
  (`Model.FloatImage`, C130, C131), for the matrix of energies and for energies that overflow (`Model.FloatMatrix`, `Model.FloatReport`, C132, C133), for the energies by degree (`Model.FloatDegree`, C134), for the colour scale of energies (`Model.FloatColour`, C135), for arithmetic of coefficient sets
  (`Model.FloatSets`) and for coordinates (`Model.FloatCoords`).
  The container is modelled over a generic element type with a dtype cast, so the container theorems hold for any arithmetic that satisfies the
  algebraic laws named in each theorem. File I/O uses its own model of binary64 values
  (`Py.Float`: sign, magnitude, infinities, NaN, correct rounding from decimals and to `%e` decimals) and of the
  text functions used (`Py.Text`: universal newlines, `split`, `strip`, `int()`, `float()`, `%d`, `%e`). The table
  of Unicode decimal digits is a parameter (any table that is right on ASCII); python's complex arithmetic in
  `real + 1j*imag` is modelled in both its versions (up to 3.13, from 3.14). A file is its decoded text. The command
  `sw-convert-magnetogram` runs on the same numbers (`Py.Arith`: correctly rounded sums and products); the values of
  the conversion factors are parameters there and are supplied by `Model.FloatFactors`.
* **File system** (`Model.Cli`): names resolve to places (so links are covered), a place may be absent, unreadable or not
  writable, and characters may not be encodable. Opening for writing empties the file.
* **Arrays.** Coefficient arrays are one-dimensional (`List`), as in every use in the package. Multi-dimensional
  grids are functions of point indices; broadcasting is written out.
* **Exceptions** are values (`Except Err`). Python `assert` is modelled as raising (no `-O`).
* **Dictionaries** are insertion-ordered association lists; **set iteration order** is an arbitrary
  permutation, universally quantified.
* **Aliasing** is modelled in a separate heap model of the container (arrays are addresses).
* **scipy** functions are taken at their documented mathematical meaning: `lpmv`/`lpmn` are the associated
  Legendre functions with Condon-Shortley phase (defined by Rodrigues' formula), `factorial` is 0 on negative
  arguments, `lambertw` gives the two real branches, `Wigner_D_element` is an arbitrary unitary representation
  in C54 (hypothesis) and the explicit sum of its documentation in C69, which satisfies that hypothesis;
  `quaternion.from_euler_angles` is its documented formula.
* **matplotlib.** The numbers handed to it are modelled, not the drawing; where they depend on its own choices these are written out
  (colour limits, `MaxNLocator`, wedges of pies) or are parameters (size of the figure, positions of the axes).
* **Not modelled:** matplotlib drawing, logging, the texts of argparse messages, the optional pdb breakpoint, write errors after
  opening (disk full), byte encodings, random number generation (arbitrary values are quantified over).

## Plan per property

| Id | Model | Proof |
|---|---|---|
| C01 | `Model.Coefficients`: set/append/get/has/size | refinement to a function `Key -> Option value`, induction on the call list |
| C02 | append | case analysis; witness for the fractional key |
| C03 | all constructors of sets, as an inductive program syntax | invariant by induction on programs; conversely every well-formed set is built by some program (`C03_reachable_iff`) |
| C04 | set/append on a state, errors keep state | case analysis |
| C05 | contents (sorted keys) | sortedness + permutation uniqueness |
| C06 | as_arrays | list reasoning on ranges; count by induction |
| C07 | from_arrays | refinement to maps |
| C08, C09, C10, C11 | add, multiply, sub, div, pow with arbitrary key order | pointwise refinement; extensionality |
| C12 | scale, copy | pointwise refinement |
| C13 | truncated | pointwise refinement |
| C14 | hstack, hsplit (sections, and lists of positions) | pointwise refinement, all key orders; columns of the pieces; iff the positions increase |
| C15 | heap model: arrays as addresses | separation invariant over all operation sequences; three witnesses for the leaks |
| C16 | isclose, allclose | decision equivalence |
| C17, C18, C19 | python str.split/int/float syntax, reader loop | total function; stability lemmas by induction on lines |
| C20, C21 | `%3d`, `%13e` formatting, decimal value of a token, correctly rounded binary floats | parse-after-format lemma, rounding bounds, idempotence |
| C22 | writer lines | equality with a specified list of lines |
| C23 | header line | negation with witness; exactly when it is right (`C23_header_iff`) |
| C24 | header text | non-data-line lemma; negation with witness file name |
| C25, C26 | map_to_positive_orders, collect_* | complex arithmetic; Legendre negative-order identity |
| C27 | conversion factors, scale, hstack | field arithmetic, positivity |
| C28, C29 | PFSS evaluation and ZDI evaluation | normalisation identity; r_l values; negation witness for 2.5 |
| C30, C31 | evaluate_spherical with clamping | case analysis on radius; r_l identities |
| C32 | potential function | derivatives by calculus; Legendre ODE for the Laplace equation |
| C33 | r_l, phi_lm | HasDerivAt |
| C34 | all field evaluators | sums over maps; for negative orders the lookup by the highest order, which agrees if orders cover each other |
| C35, C36, C37 | coordinate transforms | trigonometry, Complex.arg |
| C38, C39 | ZDI evaluators, as_poloidal, as_toroidal | sums; calculus |
| C40 | get_c_lm | factorial telescoping |
| C41, C42, C43 | energy, energy_matrix | algebra; index arithmetic |
| C44 | as_restricted | list filter |
| C45 | calculate_lpmn with numpy negative-index wrap | calculus; witness |
| C46, C47, C48, C49 | grid, areas, projection, longitudinal field, statistics | telescoping sums, Cauchy-Schwarz |
| C50 | fibonacci_sphere | arithmetic |
| C51, C52, C53 | Parker solution with Lambert W branches constructed from monotonicity | real analysis; heap witness |
| C54, C55 | rotate_magnetogram, Wigner D as representation | finite sums |
| C56 | lru cache state machine | simulation invariant over call lists |
| C57 | from_image/to_image | enumeration lemmas, linear sums |
| C58, C59 | command functions over an abstract file system | case analysis over all options |
| C60, C61, C62, C63 | tick marks, labels, intervals, plot scaling | list induction; witnesses for violations |
| C65 | zeros_like, copy, empty_like | pointwise refinement |
| C64 | energy and integral of the squared radial field | orthogonality of associated Legendre functions and of e^{im phi} |
| C66 | get_zdi_coeffs on any grid | sums over grid points against conjugate harmonics |
| C67 | sample, analyse, rebuild | discrete orthogonality in azimuth (exact), midpoint rule in the polar angle (limit), orthogonality of Legendre functions |
| C68 | to_image then from_image, `sph_harm` at its documented meaning | discrete orthogonality in azimuth, midpoint rule in one and two dimensions |
| C69 | rotate_magnetogram_euler_zyz_deg; Wigner D and Euler angles at their documented formulas | matrix elements as coefficients of products of linear polynomials; harmonics as the middle column |
| C70 | rotate, map_to_positive_orders, convert_zdi_to_pfss, evaluate_spherical, evaluate_cartesian | degree by degree the potentials differ by the rotation (C69); a chain rule on the sphere turns that into a statement about gradients |
| C71 | rotate, hsplit, map_to_positive_orders, hstack, get_cartesian_field | the same for the two surface potentials; the toroidal part is the gradient turned by a quarter about the normal |
| C72 | `Model.Maps`: plot_magnetic_field, plot_components, plot_zdi_components (numbers only) | case analysis on the signs; an equivalence for sharing one scale; negation for all axially symmetric poloidal magnetograms |
| C73 | argmax, argmin, unravel_index, add_extrema, plot_zdi_field | row-major index lemma, first-index property; weighted mean via C46 and C49 |
| C74 | `Model.Label`: `'{0:+.3g}'` and the LaTeX exponent, over exact rationals of the binary64 values | the label is parsed by an independent reader (`Spec.readLabel`); rounding lemmas on `rhe` and `Int.log` |
| C75 | `Model.Summary`: the sizes passed to `Axes.pie` and the rule of `pie` (normalised or not) | energies as sums over rows (`Spec.energyIn`), case analysis on each pie; partial: with normalised pies the negation is proved |
| C76 | `Model.PlotCmd`: the command as a program on the disk of `Model.Cli`, the figure as the numbers and texts in it; the numbers in the file are taken as exact | composition of the reader (C57), `from_coefficients`, C25, C29, C73; `Spec.ShowsField` says what a map shows; partial: the symbols are swapped |
| C77 | `Model.Lsd`: `genfromtxt` on texts, a figure as a list of axes with curves and texts, the command as a program on the disk of `Model.Cli`; rendering is a parameter | exact conditions for success, then what each axes shows (`Spec.ShowsColumn`); `C77_table` reads every well-formed table; `C77_one` is the violation |
| C78 | `Model.Lsd.plotStack`; the limits matplotlib chooses are a parameter `auto` of the curves | exact conditions; `IsLeast`/`IsGreatest` for the common limits; `C78_single` is the violation |
| C79 | `Model.Spectrum`: points, colours and limits of five panels, exact arithmetic | multiplicities of drawn samples from C62; percentiles bounded by monotone interpolation of the sorted samples; partial: every sample exactly once is false |
| C80 | `Model.Slice`: the numbers passed to matplotlib at every grid point, the colour range, labels and contour levels; of matplotlib the conditions of `streamplot` on its grid (`GridOk`) | exact conditions for success (`C80_iff`), then what is drawn against `Spec.FieldAt` (evaluate_cartesian at the point) and C37; `C80_only_x`, `C80_label_wrong` are the violations |
| C81 | `Model.Streams`: the arrays passed to `pcolormesh`, `contour`, `streamplot` and the legend; the tick locator is a parameter, the conditions of `streamplot` are those of C80 | exact conditions (`C81_iff`), full grids by arithmetic of `linspace`; contents against `Spec.FacetField`; `C81_legend`, `C81_direction` (chain rule on the sphere) are the violations |
| C82 | `Model.Superseded`: `_dplm` with `np.gradient` and `np.roll` on arrays, the loop of `get_polar_poloidal_field`, `get_cartesian_poloidal_field` | differences are weighted means of secant slopes, these are tangent slopes in between (Cauchy's mean value theorem), uniform continuity away from the poles; explicit trigonometry for the violations `C82_pole`, `C82_stuck`, `C82_roll` |
| C83 | `Model.Theta`: the difference quotient of `theta_lm` and `calculate_all_theta(scipy=False)` at a point | addition theorems turn the quotient into a forward difference over sin(1/100); mean value theorem; violations by symmetry of the cosine about the pole |
| C84 | `Model.Noise`: the loops of `noise`, with the sequence of draws as a parameter | the position of a pair in the loops in closed form (triangular numbers), the loop as a list of appends |
| C85 | `Model.ZdiStreams`: the numbers passed to matplotlib by `plot_zdi.plot_streamtraces` | as C81, over the fields of a ZDI magnetogram |
| C86 | `Model.TickMarks`: `auto_symlog_tickmarks`, `fully_manual_tickmarks`; of the colour bar `linthresh`, `vmax`, the norm and the limits of its axes | the values and labels from C60; uniqueness of the decade and of the label of a value; monotonicity of the norm |
| C87 | `Model.LongitudinalPlot`: the numbers passed to matplotlib by `plot_longitudinal_field_curve` and `plot_style`; nan (no visible facet) as ValueError of `set_ylim` | C48 for the curve; the mean of a list whose last entry repeats the first |
| C88 | `Geometry.longitudinalCurve` (as C48) on full-sphere grids | weights and unit vectors depend only on the azimuth from the observer; periodic sums do not depend on where they begin; roots of unity |
| C89 | `Model.EnergyFigure`: the image, scale, title and tick labels passed to matplotlib by `_plot_energy`, and the loop of `plot_energy_matrix`; minor tick locators and the colour bar left out | C43 for the entries, C63 for the scale; `zip` as `take` |
| C90 | `numericalDescription` on `Geom.init` grids as in C49, Mathlib integrals over the sphere as the specification | facet sums as midpoint sums of the continuous extension of each component (`Lemmas.SphereLimit`), C64 for the energies |
| C91 | `longitudinalCurve`, `projFrac`, `areas` as in C48; integrals over the disc as the specification | midpoint sums as in C90; the projected area of the visible half is shown not to depend on the direction by differentiating a smoothed kernel along the rotation (`Lemmas.Disc`) |
| C92 | as C91; the coefficients that show as the specification | toroidal part by integration by parts with a smoothed kernel (`Lemmas.DiscNull`), Funk-Hecke formula from the invariance of the sphere integral and the rotation of harmonics of C69 (`Lemmas.FunkHecke`), Green's identity for the tangential part (`Lemmas.DiscRow`), relations between degrees of Legendre polynomials (`Lemmas.LegendreRec`), Parseval of C64 |
| C93 | `Geom.cornersCartesian` in `Model.Facets`, `areas`, `unitNormals`, `projFrac` as in C46 | scalar products of points on the sphere; the area of a flat quadrangle as two triangles (Gram determinants); telescoping sums over the nodes |
| C94 | `Model.Argv`: argparse of Python 3.11 (`_parse_optional`, `_get_option_tuples`, `_parse_known_args`, `_match_arguments_partial`, `_get_values`) for the parsers of the three scripts, and `convert` from the arguments to the disk | a specification of how options may be written (`Spec.Line`) and what they add up to (`Spec.convertAsked` and others); simulation of the loop of the parser by induction on the line; for raw command lines, invariants of the loop (unknown options end up among the extras, files come from arguments tagged as words). `tools/argparse_check.py` compares the model with the argparse of Python 3.11.10 and 3.12.3 on 60000 random command lines (evidence for the transcription only) |
| C95 | `Model.Printed`: `Coefficients.__str__`, `__repr__`, `ZdiMagnetogram.__str__`; what numpy makes of an array or a number is a parameter | the texts are cut back into their parts (`Printed.cut`, `cut_continued`): printed integers have no commas, and a line of `str` begins with a digit or a sign while a continuation line of numpy begins with a space; induction on the lines |
| C96 | `Model.Fibonacci` (that of C50) | no multiple of the golden angle is a full turn (irrationality of √5), so the sums of harmonics of the azimuth are bounded, also with the one jump that the random offset makes; summation by parts and Weierstrass for the weights in height; midpoint sums for the harmonic zero; Stone and Weierstrass on the sphere. Caps by ramps from both sides, and invariance of the mean under rotations (`Lemmas.SphereMean`) |
| C97 | `Model.Contours`: the contours and the bar of `plot_components`, with matplotlib's `MaxNLocator`, `nonsingular` and `_autolev` written out in exact arithmetic | the ticks of a step are the multiples from just below to just above the range; the first step tried by `contour(…, 0)` is not below the range, so with both signs only zero lies between the data; trimming a sorted list keeps the levels in the range; `barLocator` for any number of bins |
| C98 | `Model.Pfss`; `Lemmas.SolidHarmonic` and `Lemmas.PfssCartesian`: the potential of C32 as a function on ℝ³, smooth and harmonic off the origin, poles included; `Spec.ShellPotential` for arbitrary harmonic functions (Mathlib's `HarmonicOnNhd`) | the returned components are minus the derivatives of that function along the unit vectors; `Lemmas.MaxPrinciple`: a harmonic function on a shell with no radial derivative inside is at most its maximum on the outer sphere (u + ε‖x‖² has no local maximum); applied to the difference of two potentials and its negative; poles by continuity |
| C99 | as C98 | `Lemmas.ShellField`: x·∇V is harmonic and compared with a multiple of 1/r, with a cubic barrier at the outer sphere, where V is constant; |∇V|^{1/2} is subharmonic in three dimensions by the trace-free Hessian inequality, compared in the same way; beyond the source surface by C31 |
| C100 | `Model.NdArray`: numpy arrays of any shape, broadcasting, in-place operators, `flatten`, `reshape`; `Model.PfssArrays`: the evaluation statement by statement on such arrays; `Spec.Inside`, `Spec.StretchesTo`, `Spec.ColumnSet`; compared with the single-point functions of `Model.Pfss` and with `hsplit` | broadcasting to a shape is characterised axis by axis; induction over the coefficient lines with shapes as invariant; flat positions of indices for `reshape` |
| C101 | `Model.ZdiArrays`: the getters on arrays of any shape (`Model.NdArray`), loops with `+=` into zeros of the shape of the azimuths, rows along the last axis with `np.sum(axis=-1)`, the flattening helper; compared with the single-point functions of `Model.Zdi` | `Spec.IsArrayOf`; induction over the rows; broadcasting with an additional last axis; whether `calculate_lpmn` raises does not depend on the angle |
| C102 | the single-point models `Model.Zdi`, `Model.Pfss` as they are | `Spec.rowTotal`, `Spec.SameVisible`, `Spec.storedCoef`; the integral over the sphere of the square of the difference (radial), or of the sum of the squares of the two tangential differences, is a positive definite form of the coefficient differences (orthogonality as for C64) |
| C103 | the single-point model `Model.Pfss` as it is | `Spec.overSphere`, `Spec.radialOf`, `Spec.fallOff`, `Spec.visibleSq`; orthogonality as for C64; the ratio of the fall-offs of successive degrees is strictly decreasing (sign of its derivative), degree 0 gives the rest |
| C104 | the single-point model `Model.Pfss` as it is | `Spec.overSphere`, `Spec.radialOf`; `r B_r` is harmonic, the magnitude is approximated by `sqrt(h^2 + eps^2)`; its integral, with `r = e^t`, satisfies a differential inequality (derivatives under the integral sign, integration by parts in both angles) and the condition at the source surface bounds its slope |
| C105 | `Model.FloatRange`: `get_c_lm` (both methods), the radial field, `W` and `alpha` of `get_zdi_coeffs`, the PFSS scaling and the assert of `calculate_all_theta` on the binary64 numbers of `Py.Arith`; square root, factorial, exponential and Legendre values are parameters | `Spec.Accurate` says what is assumed of numpy and scipy (satisfied by an instance); relative rounding errors compose; overflow of `170!` times the first factor; zeros and nans propagate through complex products and sums |
| C106 | `Model.FloatAxis`: the two getters that divide by the sine, the loop of `evaluate_spherical`, the scaling beyond the source surface and the cartesian components, at one point on binary64 numbers with numpy's complex division; values of scipy functions are given with each row | zero-or-nan is kept by all products and quotients and becomes nan when divided by zero; infinity times the zero sine is nan; a nan summand stays; the limit from the harmonic potential of C98 |
| C107 | `Model.ParkerText`: `%2.2G` on binary64 numbers and `ParkerSolution.__str__` | the text is split at the equality signs, which no printed number contains; each number is parsed back (mantissa and power of ten separately); nearest decimal from the grid lemmas of the float model |
| C108 | `Model.FloatSets`: the generic container operations of `Model.Coefficients` at binary64 complex numbers; `value**-1` with the C library's reciprocal as a parameter | elementwise form of `add`, `multiply` from the container lemmas; nearest double from the grid lemmas of the float model; sums below 2^-1022 are multiples of 2^-1074, hence exact; the correctly rounded reciprocal shows that the assumption on the library can be met |
| C109 | `Model.FloatCoords`: the function statement by statement on binary64 numbers, the square root, arc cosine and `arctan2` as parameters, both asserts over all points | rounding is monotone on doubles; sqrt(fl(z^2)) = z from the gap between neighbouring doubles; error terms of three squares, two sums, root and quotient added up; 1 - cos bounds the angle; correctly rounded functions show that the assumptions can be met |
| C110 | `Model.FloatCoords.toRect` after `fromRect`, with numpy's sine and cosine as further parameters | errors of the angles from C109, sine and cosine do not increase differences, errors of products; correctly rounded functions show that the assumptions can be met |
| C111 | `Model.EnergyText`: the quotients and the lines printed, on binary64 numbers, as a method whose state is the list of printed lines; numpy's sums are given | errors of the quotients (`ratio`, `part`), the texts are read back (`percent_read`, `general_read`, `fmtE_read`); shares as in C41; rounding is monotone, so printed shares are ordered as the sums are |
| C112 | `Model.FloatField`: the six sums of `ZdiMagnetogram` and the cartesian components at one point on binary64 numbers; values of scipy and numpy functions are given with each row, `np.sum` adds in any order | `Lemmas.FloatError`: a float approximates a number up to a factor times its size; products, quotients, Smith's complex division and sums multiply the factor by `1 + 2^-52`, sizes are kept away from underflow and overflow; compared with the exact `Model.Zdi` |
| C113 | `Coefs.mulArray`, `add`, `mulCoefs`, `isclose` with numpy broadcasting of rows (`bcast`) | case analysis on the lengths; the first entry already fails |
| C114 | `Zdi.radial`, `polar`, `azimuthal`, `strength` over the reals; `Pfss.calcAllTheta`, `Pfss.evalSpherical` | `Lemmas/Addition`: the addition theorem on the diagonal, by differentiating the sum of squares (ladder relations of the normalised functions telescope) ; then Cauchy-Schwarz over distinct pairs |
| C115 | `FloatPfss.spherical`, `cartesian`: the statements of `evaluate_spherical`, `r_l`, `phi_lm` on binary64; powers, Legendre functions, sines and cosines are parameters with an assumed accuracy (`GoodPow`, `GoodLine`, `GoodSine`), satisfied by correctly rounded powers (`exPower_good`) | forward error analysis with `FloatError.Ap`: a value, a size and a factor for every intermediate result; the exact field is `Pfss.evalSpherical` of C30-C33 |
| C116 | `Pfss.evalSpherical` (C28-C36); integrals over spheres as in C103 | orthogonality of the gradients of the harmonics (`Parseval.tangential_int`), then the radius: `r² R'R` is an antiderivative of `r² R'² + l(l+1) R²` by the radial equation, fundamental theorem of calculus |
| C117 | `Model.FloatEnergy`: `_energy_helper` and `energy` with rounding of every operation, `np.real_if_close`, `np.sum` as a parameter that adds in some order; energies that stay complex are in C133 | a calculus of relative errors (`Lemmas.FloatRound.Rel`), exact halving and doubling, induction over the summation tree; then C41, C42 and C111 |
| C118 | `Model.FloatFactors`: the factor functions with every operation rounded; `np.sqrt`, `x ** -1` and `x ** n` are parameters of stated accuracy; plugged into `Model.Cli` | the error calculus of `Lemmas.FloatError`; powers of 1/3 by induction; then C59 for the file, with the decimal and the double nearest to it as separate errors |
| C119 | `Model.FloatFib`: every operation rounded, python's `%` of floats exact; `math.sqrt`, `pow(y, 2)`, `math.cos`, `math.sin` are parameters of stated accuracy | absolute rounding errors added up; the remainder of doubles is a double; monotonicity of rounding for the wrap-around |
| C120 | `Model.FloatClose`: numpy's `isclose` on complex128 written out and put into `allclose`; `hypot` is a parameter of stated accuracy | relative errors of the difference, its size and the tolerance; special values by cases; C20 and C118 for the files |
| C121 | `Model.Parker` over the reals | inverse function theorem away from the sonic point, second-order expansion of both sides of the Parker equation at it; continuity from monotonicity and the intermediate value theorem |
| C122 | `Model.Parker` over the reals | log speed is a concave function of log radius: its slope is antitone on both sides of the sonic point by comparison with the curve sinh(eta) = 2 sinh(tau), and at least 1 inside, at most 1 outside; Bernoulli's equation for the atmosphere at rest |
| C123 | `Model.FloatParker`: `find_parker_analytic` (`all_sols=False`), `speed` and `density` of one radius on binary64 numbers; `log`, `exp`, `lambertw`, complex `sqrt` and `** -2` are parameters with stated accuracies (`Spec.GoodWind`). The dtype `np.vectorize` picks for arrays mixing real and complex results is not modelled | error calculus for the exponent; the equation in terms of p = u^2 is p - log p = -log(-z), so errors of z and p enter additively; (a-b)^2 <= abs(lhs a - lhs b) on one side of 1 turns the residual into an error of the speed; exp(-1) to 22 terms against the grid of doubles |
| C124 | `Model.FloatParker`: `radius_sonic`, `speed_sonic`, `density_sonic`, `density` and `total_mass_flux` on binary64 numbers, for real speeds; numpy's `sqrt` and `** -2`, python's `** 2` and `** -2` are parameters (`Spec.GoodPowers`) | a relative form of the error calculus with tracked exponents (`FloatParker.Rel`); the sonic radius and speed cancel in the flux |
| C125 | `Model.FloatDescribe`: the corners by `np.linspace`, the areas, `describe` and `numerical_description` on binary64 numbers; `np.cos`, `np.sqrt`, scalar `** 2` and `** .5` are parameters (`Spec.GoodDesc`), and so is the order of `np.sum`; the field values at the centres are arbitrary floats | the error calculus on sums of nonnegative terms; cos x − cos y ≥ d²/5 for corners d apart gives areas that are not negative, telescoping gives their total; the exact identity rms² = mean² + std² holds up to the error of the total area |
| C126 | `Model.FloatVisible`: centres, normals, visible fractions and the averages of `get_longitudinal_field_curve` on binary64 numbers; `np.sin`, `np.cos` (`Spec.GoodCircle`), the power `** .5` and the order of `np.sum` are parameters; the cartesian field at the centres is an arbitrary list; `Model.FloatTurn` builds the default azimuths in doubles: `np.deg2rad` is the product with the constant π/180 | sums of terms of both signs in any order: the error is at most (w^n − 1) times the sum of the magnitudes; the fraction of each facet is right to 2^-36, the numerator and the denominator follow, then the quotient; on the grids of `ZdiGeometry(n, k)` the area seen is bounded below: max(0, x) ≥ (x + x²)/2 and the sums of the first harmonics over equal steps have closed forms (`Lemmas.SeenArea`), the rounding of corners and areas costs at most 2^-15; the default azimuths are right to 2^-46 and the average is Lipschitz in the direction (`average_lip`) |
| C127 | `Model.FloatVector`: both transformation matrices and `_cartesian_from_spherical_helper` on binary64 numbers; flat lists for arrays (equality of shapes is equality of lengths), broadcasting of the azimuths; an entry of the matrix product is a parameter with the error bound `Spec.GoodInner`, which sums in any order meet (`C127_sums`); the spherical components are arbitrary lists | entries of the matrix from the products of sines and cosines, products of rows from the error of scalar products, orthonormality of the exact frame for lengths and the way back; the curve from C126 and the Lipschitz bound of the frame at the rounded centres |
| C128 | `Model.FloatFold`: `collect_cosines` and `map_to_positive_orders` on binary64 numbers, `cmath.polar` and `cmath.rect` as in CPython with their errors; hypot, atan2, sines, cosines, `**2` and the root are parameters with the error bounds `Spec.GoodFold`; the table of special values of `cmath.rect` (nan) is a parameter without assumptions | the length turned by the computed angle gives the number back up to rounding (`back`), twice: from polar form and to rectangular form; the field from `|Y| <= l + 1` (C114) and the exact folding identity; overflow from the square of the sum |
| C129 | `Model.FloatRotate`: `rotate_magnetogram` on complex128 numbers; `Wigner_D_element` is a parameter, assumed within eta of the documented elements (`Spec.GoodElements`) | error of a rounded sum of rounded products (`step`, `sum_ok`), elements bounded by 1 because the matrices are unitary (C69); the field from `|Y| <= l + 1` and the exact turning identity of C69; the fold from C128 |
| C130 | `Model.FloatImage`: `from_image` and `to_image` on complex128 arrays with the corners and centres of `ZdiGeometry`; `sph_harm`, `np.sin` and the order of `np.sum` are parameters; the cache is C56 | relative error of chains of complex products (`Rel`, `Rel.mul`), error of sums in any order from C117/C126 (`csum_close`), widths of the facets add up to 2 pi^2 (`box_total`), the harmonics bounded by l + 1; the round trip by the triangle inequality |
| C131 | models of C130 | the midpoint sums of a product of two harmonics split into a polar and an azimuthal factor; each is a rule for a Lipschitz function (`rule`), with |dY/dtheta| <= (l+1)^2 from the addition theorem (C114) and the exact integrals of C68; then linearity and C130_round |
| C132 | `Model.FloatMatrix`: `energy_matrix` on the energies of `Model.FloatEnergy`; arrays may be real or complex, storing keeps the real part; numpy's ComplexWarning is not modelled | the stored list is the list of real parts in every case; the last of equal indices wins a fold; relative errors and overflow of C117 |
| C133 | `Model.FloatReport`: `energy` on numbers that are floats or complex, with destination; without destination up to line 403 (the rest is `Model.EnergyText`); complex sums, quotients, `hypot` and the text of complex numbers are parameters | a nan in the imaginary part of one energy passes every sum tree; `np.isclose` of C120 is false for nan; equality of the two models of `energy` on real energies |
| C134 | `Model.FloatDegree`: `plot_energy_by_degree` on floats, curves as lists of points (drawing itself not modelled); `np.sum` in any order, `np.cumsum` from the left | relative error of every quotient and sum (sums of doubles have no underflow error), absolute error of cumulative sums; nan through every sum tree in the other cases |
| C135 | `Model.FloatColour`: the numbers of `_plot_energy` on floats; `x ** -1` is a parameter | energies of C134 are doubles that are not negative; the largest entry is also the largest positive one; comparison with 1 through the inverse; a nan among the entries is the maximum |

All properties are expressible. Properties that the code violates are answered by a theorem that exhibits the
violation and by the strongest true variant (`_partial`).

## Disagreements between code and properties

| Id | What the code does | Theorems |
|---|---|---|
| C02 | a fractional index passes the duplicate check and overwrites an existing entry | in `Props.Container` |
| C15 | `get` returns the live array, the constructor keeps the caller's default array; `hsplit` at positions that do not increase returns sets that share their defaults | in `Props.Heap` |
| C21 | `real + 1j*imag` loses the sign of a real part -0.0, so a second write can differ in a `-` | `C21_negative_zero_lost`, exactly when: `C21_identical_iff` |
| C23 | every data line is its own list, so the SWMF header always announces 1 data line | `C23_header_always_one`, `C23_header_wrong`, `C23_header_iff` |
| C24 | the SWMF header repeats the file name, which may read as a data line | `C24_file_name_is_data` |
| C29 | `convert_pfss_to_zdi` is exact only for a source surface at 3 stellar radii; the package default is 2.5 | `C29_other_radii` |
| C34 | with negative orders the polar and azimuthal ZDI fields are not linear in the coefficients (consequence of C45) | `C34_negative_orders_fail`; linear if the orders cover each other: `C34_zdi_tangential` |
| C35 | at the origin the polar angle is pi/2, not the documented 0 | `C35_origin` |
| C37 | `get_cartesian_field` of the toroidal part always fails its `assert False` | `C37_cartesianToroidal_raises` |
| C40 | the alternative method of `get_c_lm` is wrong for negative orders | `C40_negative_orders_differ` |
| C41 | at order 0 only the real part counts, so an imaginary axisymmetric coefficient has no energy | `C41_zero_iff` |
| C44 | `as_dipole` drops negative orders | `C44_dipole_drops_negative` |
| C45 | `calculate_lpmn` looks negative orders up at another order (numpy index wrap) | `C45_negative_orders`, `C45_negative_order_wrong` |
| C46 | a number of corners next to an array is not expanded: the grid has one corner in that direction and no facets | `C46_mixed` |
| C48 | integer observer azimuths make the result array an integer array: the field is truncated towards zero | `C48_integer_azimuths`, `C48_truncation_witness` |
| C48 | if no facet is visible the code divides by zero | `C48_invisible` |
| C49 | the assertion called a statistical identity fails on grids that do not cover the sphere | `C49_assertion_iff`, `C49_partial_grid_fails` |
| C52 | for integer radii and a fractional stellar radius, radii inside the star are evaluated at its integer part | `C52_integer_radii` |
| C53 | `speed` and `density` overwrite entries of the caller's array that lie inside the star | `C53_effect`, `C53_unchanged_iff`, `C53_overwritten` |
| C54 | rotation adds the default to every value; sets that are not complex raise TypeError | `C54_default_added`, `C54_real_raises` |
| C56 | with the cache, coordinates that are not a mesh are evaluated at other points; an array written to by the caller is returned again | `C56_other_coordinates`, `C56_write_corrupts` |
| C57 | `from_image(image, lmax=L)` has no coefficients of degree L | `C57_from_image` |
| C58 | an output name that is another name of the input file (link, `./`) is accepted and the input is overwritten | `C58_alias`, `C58_alias_witness` |
| C58 | if the name in the header cannot be encoded the command fails but the output file is already emptied | `C58_error`, `C58_unencodable_witness` |
| C59 | coefficients of negative order do not reach the output | `C59_negative_orders_witness`, range of `C59_no_conversion` etc. |
| C60 | for a range that is empty by more than one there are major but no minor ticks | `C60_empty_range` |
| C61 | a closing brace without an opening one: the text before it is taken for the exponent | `C61_closing_only` |
| C62 | every interval after the first starts before the jump; the last sample is in no interval | `C62_times`, `C62_jump_inside`, `C62_never_a_partition` |
| C63 | the lower end of the colour scale is the reciprocal of the largest energy, so above the upper end if that is below 1 | `C63_colour_order`, `C63_colour_witness` |
| C63 | the points shown leave out degree 0 | `C63_shown_sum` |
| C64 | rows of opposite order may cancel: with negative orders the energy is not the mean square field | `C64_negative_orders_fail` |
| C72 | the colour bar is that of the azimuthal map; if that component has no sign change, as for every axially symmetric poloidal field, the bar is viridis from 0 while the radial map is RdBu_r about 0 | `C72_shared_iff`, `C72_axial_bar`, `C72_bar_witness` |
| C72 | `plot_zdi_components` ignores `symmetric` and `cmap` | `C72_axial_bar`, `C72_bar_witness` |
| C72 | `abs_max` is exceeded by the scale if the field goes below `-abs_max` | `C72_abs_max_exceeded` |
| C75 | with matplotlib ≥ 3.5 `pie` normalises: the single wedges (radial, axisymmetric) always show 100 %, the multipoles are shown as parts of their sum | `C75_normalized`, `C75_witness` |
| C75 | a purely toroidal magnetogram cannot be drawn (nan in `pie`), and with normalisation neither can one without radial or axisymmetric energy | `C75_toroidal_only`, `C75_defined` |
| C76 | the map of the polar component is labelled $B_\phi$ and that of the azimuthal component $B_\theta$, the reverse of `plots.py:48, 84-85` | `C76_symbols_swapped` |
| C76 | with `--type pfss` the maps are mirrored in azimuth with respect to `evaluate_spherical` | `C76_pfss`, `C76_mirrored` |
| C76 | an output name equal to the input name replaces the magnetogram (the conversion command refuses this) | `C76_overwrites` |
| C72 | at and outside the source surface the colour bar of the PFSS maps is viridis from 0 while the radial map is red and blue about 0 | `C72_pfss_bar` |
| C77 | `sw-plot-lsd` with one parameter raises TypeError (`axs[0]` of a single axes) | `C77_one` |
| C78 | a stack of one profile raises TypeError | `C78_single` |
| C79 | the last sample is never drawn, the one before a jump twice | `C79_panels_partial` |
| C80 | `plot_slice` with normal y or z raises ValueError in `streamplot` (it always passes the y and z coordinates) | `C80_only_x` |
| C80 | with normal x the horizontal axis shows y but is labelled x | `C80_label_wrong` |
| C81 | the line widths in the legend of `plot_streamtraces` are scaled by the largest tick, those of the stream lines by the largest strength | `C81_legend` |
| C81 | stream lines on the map of polar angle against azimuth are drawn along (B_phi, B_theta), which is not the direction of a field line on that map (B_phi / sin theta, B_theta) | `C81_direction` |
| C81 | without a tangential field the line widths are nan | `C81_width` |
| C82 | `get_polar_poloidal_field` and `get_cartesian_poloidal_field`: less than half of the field in the columns next to the poles for degree 1, order 1, on every equidistant grid | `C82_pole`, `C82_stuck` |
| C82 | `_dplm` with `roll`: the first column is differentiated across the whole star | `C82_roll` |
| C83 | `theta_lm`: the derivative is zero at the poles and next to the south pole also for order 1, where the exact one is not | `C83_zero`, `C83_order_one` |
| C84 | `noise` with degree 0 and `beta` other than 0 divides by zero (nan coefficients for positive `beta`, ZeroDivisionError for negative) | `C84_monopole` |
| C85 | `plot_zdi.plot_streamtraces`: the widths in the legend are relative to the largest tick, not to the largest strength | `C85_legend` |
| C86 | `auto_symlog_tickmarks`: major ticks outside the limits are kept | `C86_inside` |
| C86 | `fully_manual_tickmarks`: ticks of the vertical axis are placed by the limits of the horizontal axis | `C86_vertical` |
| C86 | `fully_manual_tickmarks`: assumes an axis in units of the norm; wrong where the axis is in units of the value | `C86_value_axis` |
| C87 | `plot_longitudinal_field_curve`: the dashed line counts azimuth 0 twice; above the mean for an equatorial dipole on every full-sphere grid | `C87_line`, `C88_line` |
| C89 | `plot_energy_matrix`: more types than axes are dropped silently; empty input raises UnboundLocalError; tick labels between columns are truncated towards zero | `C89_count`, `C89_nothing`, `C89_labels` |
| C93 | `areas` gives the area of the curved patch, the facets spanned by `corners_cartesian` are flat and smaller, and `unit_normals` is not perpendicular to them off the equator (a comment in `areas` says that it is inconsistent) | exact ratio of the areas; perpendicular exactly for facets centred on the equator |
| C93 | with two azimuthal corners a full-sphere grid has a single column of facets whose normals all point to azimuth pi, so the visible area from azimuth 0 is zero (and a longitudinal field is 0/0) | `C93_lopsided`; from three corners on opposite directions see the same area |
| C94 | an option between the input and the output file makes the scripts refuse the command line with 'unrecognized arguments' (the optional file is taken as absent as soon as the input is read; argparse of Python 3.11.10 and 3.12.3; later releases may differ) | `C94_between`; everywhere else options may stand (`C94_position`) |
| C95 | sets with the same contents can have different `repr`: it prints the dict in the order of insertion (`str` sorts) | `C95_repr_order`, for every set with two pairs or more; `C95_repr` says exactly what it shows. `str` uses numpy's print options (8 digits by default), so that values that differ beyond them print alike; `C95_faithful` says that this is the only loss |
| C97 | `plot_magnetic_field` asks for the zero line with `contour(…, 0)`, which means 'no more than one interval', not 'level 0'. It is the zero line if the field has both signs (`C97_zero`); with symmetric=True and a field of one sign it is a line at another level (`C97_forced`) | `C97_zero`, `C97_forced` |
| C97 | the bar belongs to the azimuthal map; if that map is not symmetric, extrema of the other components can lie off the bar and lines below it are missing; for axially symmetric poloidal fields no line is below zero | `C97_markers_iff`, `C97_one_sided`, `C97_axial`; with a symmetric bar all is well (`C97_levels`) |
| C100 | a set with n ≠ 1 columns makes `evaluate_spherical` fail with ValueError, except when the last axis of the points happens to have length n: then no error is raised and the point with last index j gets the field of column j alone, so the same point given twice gets two different fields | `C100_columns`, `C100_shared_out`, `C100_same_point_twice` |
| C101 | the two angles are not treated alike: one polar angle with many azimuths is accepted, one azimuth with many polar angles, or a column of polar angles with a row of azimuths, raises ValueError (the sums are added in place to zeros of the shape of the azimuths) | `C101_refused`, `C101_asymmetric` |
| C105 | coefficients with `l + m >= 171` are silently ignored (from degree 86 on); a coefficient with `l - m >= 170`, such as the axisymmetric one of degree 170, makes the whole radial field nan; the PFSS functions fail an assert from degree 171 on | `C105_dropped`, `C105_field_dropped`, `C105_field_nan`, `C105_pfss_raises` |
| C106 | on the axis: the tangential components of every ZDI magnetogram are nan at polar angle 0; a PFSS set with order 1 gives nan (positive z axis) or non-finite (negative z axis) polar and cartesian components, though the exact field has a limit there | `C106_zdi_nan`, `C106_pfss_nan`, `C106_pfss_not_finite`, `C106_limit` |
| C107 | Parker solutions with different parameters can have the same text (two significant digits) | `C107_not_injective`; `C107_close` bounds how far apart they can be |
| C108 | `s / y` multiplies by the rounded reciprocal: 49 / 49 gives 1 - 2^-53, and dividing by a python float of magnitude at most 2^-1024 raises OverflowError even if the quotients are small | `C108_lost`, `C108_div_raises`; `C108_div` bounds the error |
| C109 | coordinates in double precision: points within 2^-28 |z| of the positive z axis get polar angle 0, where a PFSS field with order 1 is nan; a coordinate above 2^512 or all below 2^-538 puts the point at the equator; near 2^-537 the assert on the polar angle fails | `C109_cone_nan`, `C109_overflow`, `C109_underflow`, `C109_raises`; `C109_total` for the range in between |
| C110 | converting points to spherical coordinates and back is accurate only to about half the digits near the axis: the polar angle is taken from its cosine, so points within 2^-28 z of the axis come back on it | `C110_cone`; `C110_round_trip` bounds the error everywhere |
| C111 | the printed report breaks off with an AssertionError after eleven lines unless there is exactly one coefficient of degree 1 and order 0; poloidal and toroidal percentages can add up to 100.1 | `C111_incomplete`, `C111_nan`; `C111_hundred_sharp`, with `C111_hundred` as what holds |
| C117 | an imaginary part in order 0, which has no energy, destroys the energy of the real part when large (`1 + 2^30 i` has energy 0); tiny ones give a negative energy | `C117_hidden_lost`, `C117_negative`; `C117_hidden` as what holds |
| C117 | coefficients of 2^512 or more leave nan in complex energies instead of an overflow to infinity | `C117_overflow` |
| C117 | the share of one degree in the poloidal energy can exceed 1 by rounding | `C117_share_above_one` |
| C07 | `from_arrays` checks the number of degrees but not of orders: with fewer orders the remaining coefficients are dropped silently | `C07_fromArrays_orders_unchecked` |
| C118 | a degree of 2^63 or more, which the reader accepts, raises TypeError in `np.sqrt` | `C118_degree_refused` |
| C120 | finite numbers whose absolute value overflows (parts near 1.8e308) are close to every number that is not nan | `C120_overflow` |
| C120 | next to an infinite real (imaginary) part the other part is compared without tolerance | `C120_infinite` |
| C123 | The speed of a star smaller than 1/200 of its sonic radius underflows to zero at its surface; the density there is then nan and the mass loss zero, without an exception. The exact values are positive | `C123_underflow`, `C123_cold` |
| C123 | At the sonic point a correctly rounded `exp(-1)` makes the argument of `lambertw` smaller than -1/e: whether the result is real there depends on how `lambertw` treats such an argument | `C123_sonic` |
| C126 | an observer who sees no facet gets nan (0/0) instead of an error; on the grid of `ZdiGeometry(2, 2)` the first entry of the default curve is such a nan | `C126_invisible`, `C126_two_corners` |
| C128 | `collect_cosines` squares the sums, so coefficients above about 10^154 fold to infinities without an exception, although the folded number is representable (and `hypot` would give it) | `C128_overflow` |
| C132 | a coefficient of 2^512 or more gives an infinite or nan entry without an error; of rows with the same pair only the last one is shown | `C132_matrix` |
| C133 | a coefficient of 2^512 or more makes energy fail with AssertionError (after storing 41 values) or ValueError instead of reporting the overflow | `C133_dest`, `C133_print` |
| C134 | a field without energy, or one overflowing coefficient, ends the scaled figure in AssertionError ("does not add up to 1") | `C134_scaled`, `C134_overflow` |
| C135 | the colour scale is the wrong way round (vmin > vmax) for every field whose largest energy is above 1e-8 and below 1, also in doubles | `C135_reversed` |
| C135 | one coefficient that overflows leaves the figure of energies without a scale (`vmax` is nan) or ends it in `ValueError`; nothing checks | `C135_overflow` |
