# Functions of the package and the definitions that model them

Written by `tools/coverage.py` from the citations in the comments of `lean/Verif/Model`.

## associated_legendre.py

| Function | Lines | Definitions |
|---|---|---|
| `calculate_lpmn` | 5-30 | FloatAxis: `PPoint.dtheta`; FloatField: `slopeTerm`; Legendre: `npIndex`, `listMax`, `calcLpmn`; NdArray: `indices`, `mapRes`; ZdiArrays: `derivArr` |

## bin/convert_magnetogram.py

| Function | Lines | Definitions |
|---|---|---|
| `main` | 16-42 | Argv: `Exit`, `Act`, `Parser`, `Opt`, `Tag`, `lookup`, `partition`, `negative`, `tuples`, `parseOptional`, `tags`, `St`, `dashes`, `matchOne`, `matchOpt`, `value`, `consumePos`, `Found`, `cluster`, `argument`, `runs`, `consumeOpt`, `noOpt`, `loop`, `parse`, `flag`, `storedInt`, `ends`, `helpActs`, `ConvertArgs`, `convertParser`, `End`, `convert`; Cli: `Options`, `main` |
| `no_conversion` | 45-59 | Cli: `lift`, `save`, `noConversion` |
| `convert_zdi_to_pfss` | 62-73 | Cli: `lift`, `save`, `convertZdiToPfss` |
| `convert_pfss_to_zdi` | 76-89 | Cli: `lift`, `save`, `convertPfssToZdi` |
| `_make_output_filename` | 92-110 | Cli: `Disk`, `pathExists`, `basename`, `splitext`, `madeName`, `outputName` |

## bin/generic_arguments.py

| Function | Lines | Definitions |
|---|---|---|
| `add` | 9-18 | Argv: `Level`, `Common`, `flag`, `ends`, `commonActs` |
| `handle` | 21-23 | Argv: `convert` |
| `defaults` | 27-30 | Argv: `flag`, `storedInt`, `ends`, `ConvertArgs`, `convertParser` |

## bin/plot_lsd.py

| Function | Lines | Definitions |
|---|---|---|
| `main` | 15-37 | Argv: `Exit`, `Act`, `Parser`, `Opt`, `Tag`, `lookup`, `partition`, `negative`, `tuples`, `parseOptional`, `tags`, `St`, `dashes`, `matchOne`, `matchOpt`, `value`, `consumePos`, `Found`, `cluster`, `argument`, `runs`, `consumeOpt`, `noOpt`, `loop`, `parse`, `stored`, `helpActs`, `LsdArgs`, `lsdParser`, `End`; Lsd: `Data`, `tokens`, `number`, `genfromtxt`, `subplots`, `Options`, `setTitle`, `figure`, `main` |

## bin/plot_magnetogram.py

| Function | Lines | Definitions |
|---|---|---|
| `main` | 16-75 | Argv: `Exit`, `Act`, `Parser`, `Opt`, `Tag`, `lookup`, `partition`, `negative`, `tuples`, `parseOptional`, `tags`, `St`, `dashes`, `matchOne`, `matchOpt`, `value`, `consumePos`, `Found`, `cluster`, `argument`, `runs`, `consumeOpt`, `noOpt`, `loop`, `parse`, `stored`, `helpActs`, `PlotArgs`, `plotParser`, `End`; Label: `splitSep`; PlotCmd: `exactF`, `exactC`, `exact`, `Picture`, `joinSpace`, `fieldName`, `getter`, `otherPlot`, `draw`, `magnetogram`, `Options`, `main` |
| `guess_star_name_from_filename` | 78-79 | Cli: `basename`; PlotCmd: `starName` |

## coefficients.py

| Function | Lines | Definitions |
|---|---|---|
| `Coefficients.__init__` | 13-18 | Coefficients: `DType`, `rank`, `Coefs`, `new`; Heap: `Ref`, `Heap`, `HObj`, `hnew`; ReaderWriter: `zeroJ` |
| `Coefficients.default_coefficients` | 21-23 | Heap: `readRef`, `Ref.Valid`, `hread`, `alloc`, `hdefault` |
| `Coefficients.append` | 25-29 | Coefficients: `keyIn`, `append`; Heap: `H`, `H.pure`, `H.bind`, `instance`, `raise`, `HObj.keyIn`, `happend` |
| `Coefficients.set` | 31-44 | Coefficients: `DType`, `rank`, `Elem`, `ElemRing`, `ElemField`, `set`; Elements: `truncR`, `castC`, `instance`, `castQ`; Heap: `Ref`, `Heap`, `H`, `H.pure`, `H.bind`, `instance`, `raise`, `readRef`, `Ref.Valid`, `hread`, `alloc`, `hset` |
| `Coefficients.has` | 46-48 | Coefficients: `keyIn`, `has`, `keys` |
| `Coefficients.get` | 50-56 | Coefficients: `get`, `getI`; Heap: `hget` |
| `Coefficients.degree_max` | 59-61 | Coefficients: `Coefs` |
| `Coefficients.order_min` | 64-66 | Coefficients: `Coefs` |
| `Coefficients.size` | 69-71 | Coefficients: `size`, `keys` |
| `Coefficients.__str__` | 73-80 | Printed: `strText` |
| `Coefficients.__repr__` | 82-83 | Printed: `entries`, `reprText` |
| `Coefficients.contents` | 85-89 | Coefficients: `keys`, `contents`; Heap: `HObj.keys`, `hcontents` |
| `Coefficients.contents.iterator` | 86-88 | Coefficients: `keys`, `contents`; Heap: `HObj.keys`, `hcontents` |
| `Coefficients.as_arrays` | 91-136 | Coefficients: `requested`, `asArrays` |
| `Coefficients.copy` | 138-138 | Coefficients: `copy` |
| `Coefficients.scale` | 140-140 | Coefficients: `scale` |
| `Coefficients.__add__` | 142-142 | Coefficients: `add`; FloatSets: `addF` |
| `Coefficients.__sub__` | 144-144 | Coefficients: `mulScalar`, `sub`; FloatSets: `subF` |
| `Coefficients.__mul__` | 146-146 | Coefficients: `mulArray`, `mulCoefs`; FloatSets: `mulF` |
| `Coefficients.__rmul__` | 148-148 | Coefficients: `mulArray`, `mulCoefs`; FloatSets: `mulF` |
| `Coefficients.__pow__` | 150-155 | Coefficients: `pow`; Heap: `hmapArr`, `hpow` |
| `Coefficients.__truediv__` | 157-157 | Coefficients: `mulScalar`, `divScalar`, `divCoefs`; FloatSets: `powNeg`, `divF` |
| `Coefficients.truncated` | 159-159 | Coefficients: `truncated` |
| `Coefficients.hsplit` | 161-161 | Coefficients: `hsplit`, `hsplitAt` |
| `from_arrays` | 164-191 | Coefficients: `fromArrays` |
| `noise` | 194-205 | Noise: `coefOf`, `step`, `loopKeys`, `noise` |
| `allclose` | 208-225 | Coefficients: `allclose`; FloatClose: `Tol`, `defaults`, `allclose` |
| `isclose` | 228-241 | Coefficients: `bcast`, `isclose`, `instance`; FloatClose: `AbsLib`, `Tol`, `defaults`, `le`, `eq`, `csub`, `cabs`, `cnan`, `close` |
| `empty_like` | 244-248 | Coefficients: `emptyLike`; Heap: `hemptyLike` |
| `zeros_like` | 251-258 | Coefficients: `appendAll`, `intRow`, `zerosLike`; Heap: `hloop`, `hzerosLike` |
| `copy` | 261-270 | Coefficients: `appendAll`, `intRow`, `copy`; Heap: `hloop`, `hcopy` |
| `scale` | 273-282 | Cli: `scaleF`; Coefficients: `promote`, `imulAt`, `scale`; FloatFactors: `FactorLib`, `inverse`; Heap: `splice`, `hwrite`, `HObj.keys`, `hscaleLoop`, `hscale` |
| `truncated` | 285-297 | Coefficients: `appendAll`, `truncated`; Heap: `hloop`, `htruncated` |
| `add` | 300-319 | Coefficients: `bcast`, `combineLoop`, `add`; FloatSets: `addF`; Heap: `hzipArr`, `hcombine` |
| `multiply` | 322-346 | Coefficients: `bcast`, `combineLoop`, `mulArray`, `mulCoefs`; FloatSets: `ofReal`, `mulF`; Heap: `hmapArr`, `hzipArr`, `hcombine`, `hmulScalar` |
| `hstack` | 350-370 | Coefficients: `promote`, `hstack`; Heap: `hreadAll`, `hhstackArr`, `hdefaults`, `hhstack` |
| `hsplit` | 373-393 | Coefficients: `npSplit`, `hsplitRow`, `hsplit`, `slicePos`, `pySlice`, `npSplitAt`, `hsplitAt`; Heap: `Ref`, `Heap`, `hsplitArr`, `hsplitRowH`, `hsplitLoop`, `hhsplit`, `Ref.slice`, `hsplitArrAt`, `hsplitLoopAt`, `hhsplitAt` |

## colorbar_manual_tickmarks.py

| Function | Lines | Definitions |
|---|---|---|
| `auto_symlog_tickmarks` | 5-38 | TickMarks: `Bar`, `AxisArg`, `decade`, `target`, `autoSymlog` |
| `fully_manual_tickmarks` | 41-65 | TickMarks: `Marks`, `position`, `fullyManual` |
| `generate_major` | 68-85 | Ticks: `arange`, `posLabel`, `negLabel`, `generateMajor` |
| `generate_minor` | 88-98 | Ticks: `npUniqueSort`, `generateMinor` |
| `tesla_to_gauss` | 101-117 | Ticks: `find`, `intOf`, `teslaToGauss` |

## converter.py

| Function | Lines | Definitions |
|---|---|---|
| `collect_cosines` | 14-29 | Converter: `collectCosines`; FloatFold: `FoldLib`, `collectCosines` |
| `collect_sines` | 32-47 | Converter: `collectSines` |
| `map_to_positive_orders` | 50-81 | Converter: `cRect`, `foldPair`, `foldRow`, `foldKeys`, `mapToPositiveOrders`; FloatFold: `FoldLib`, `polar`, `rect`, `foldPair`, `foldRow`, `mapToPositiveOrders` |
| `forward_conversion_factor` | 84-113 | Cli: `Factors`; Converter: `forwardFactor`; FloatFactors: `FactorLib`, `sqrtInt`, `forward`, `factors` |
| `convert_zdi_to_pfss` | 116-125 | Cli: `zdiToPfss`; Converter: `zdiToPfss` |
| `_beta_inverse_conversion_factor` | 128-130 | Cli: `Factors`; Converter: `betaFactor`; FloatFactors: `beta`, `factors` |
| `convert_pfss_to_zdi` | 133-149 | Cli: `pfssToZdi`; Converter: `pfssToZdi`; FloatFactors: `inverse`, `factors` |
| `convert_latlon_to_zdi` | 152-158 | Analysis: `latlonToZdi` |
| `convert_latlon_to_zdi_coeffs` | 161-170 | Analysis: `latlonCoeffs` |
| `get_zdi_coeffs` | 173-261 | Analysis: `Pt`, `points`, `mean`, `pseudoArea`, `analyse`, `zdiCoeffs`; FloatRange: `weightW`, `alphaPart` |
| `positive_lm` | 264-267 | Image: `positiveLm` |

## coordinate_transforms.py

| Function | Lines | Definitions |
|---|---|---|
| `spherical_coordinates_from_rectangular` | 6-27 | Coordinates: `arctan2`, `sphericalFromRect`; FloatCoords: `AngleLib`, `isNan`, `radius`, `cosine`, `raw`, `fromRect` |
| `rectangular_coordinates_from_spherical` | 30-46 | Coordinates: `rectFromSpherical`; FloatCoords: `SineLib`, `rawRect`, `toRect` |
| `spherical_to_rectangular_transformation_matrix` | 49-83 | Coordinates: `sphToRectMatrix`; FloatAxis: `cartesian`; FloatField: `cartesian`; FloatVector: `toRectMat`, `row`, `stretch` |
| `rectangular_to_spherical_transformation_matrix` | 86-116 | Coordinates: `rectToSphMatrix`; FloatVector: `toSphMat` |

## fibonacci_sphere.py

| Function | Lines | Definitions |
|---|---|---|
| `fibonacci_sphere` | 8-36 | Fibonacci: `pyFMod`, `fibPoint`, `fibonacciSphere`; FloatFib: `FibLib`, `isNeg`, `signBit`, `fmod`, `pyMod`, `pi`, `mathSqrt`, `mathTrig`, `mathSquare`, `height`, `point`, `sphere` |

## geometry.py

| Function | Lines | Definitions |
|---|---|---|
| `ZdiGeometry.__init__` | 10-28 | FloatDescribe: `pi`, `twoPi`, `linspace`, `larger`, `smaller`, `maximum`, `minimum`, `checkOnce`, `corners`; FloatTurn: `defaultAzimuths`; Geometry: `Arr2`, `CornerArg`, `CornerArg.values`, `linspace`, `extent`, `Geom`, `corners`, `meshgrid`, `Geom.init` |
| `ZdiGeometry.shape` | 31-32 | FloatTurn: `defaultAzimuths`; Geometry: `Geom.shape` |
| `ZdiGeometry.corners` | 34-36 | Geometry: `Geom` |
| `ZdiGeometry.centers` | 39-48 | FloatVisible: `centrePolar`, `centreAzimuth`, `facets`; Geometry: `rInit`, `rTail`, `cInit`, `cTail`, `map1`, `map2`, `makeCenters`, `Geom.centers` |
| `ZdiGeometry.centers.make_centers` | 41-42 | Geometry: `rInit`, `rTail`, `cInit`, `cTail`, `map1`, `map2`, `makeCenters`, `Geom.centers` |
| `ZdiGeometry.unit_normals` | 50-52 | Geometry: `Geom.unitNormals` |
| `ZdiGeometry.areas` | 58-66 | FloatDescribe: `DescLib`, `pairs`, `areas`; FloatVisible: `facets`, `area`; Geometry: `rInit`, `rTail`, `cInit`, `cTail`, `map1`, `map2`, `Geom.areas` |
| `ZdiGeometry.projected_visible_area_fraction` | 75-88 | FloatVisible: `dot`, `dirLength`, `unitDir`, `fraction`; Geometry: `dot3`, `Geom.projFrac` |
| `ZdiGeometry.corners_cartesian` | 91-99 | Facets: `Geom.cornersCartesian` |
| `ZdiGeometry.centers_cartesian` | 101-110 | FloatVisible: `centre`, `normals`; Geometry: `Geom.unitNormals` |
| `numerical_description` | 113-169 | FloatDescribe: `DescLib`, `larger`, `maximum`, `close`, `FStats`, `mean`, `rms`, `deviation`, `std`, `describe`, `Values`, `accumulated`, `direction`, `strengthAt`, `strength`, `numericalDescription`; Geometry: `sum2`, `Stats`, `describe`, `evalAt`, `describeDirection`, `numericalDescription` |
| `numerical_description.describe` | 126-151 | FloatDescribe: `DescLib`, `larger`, `maximum`, `close`, `FStats`, `mean`, `rms`, `deviation`, `std`, `describe`, `numericalDescription`; Geometry: `sum2`, `Stats`, `describe`, `numericalDescription` |

## image_converter.py

| Function | Lines | Definitions |
|---|---|---|
| `TimeLogger.__init__` | 17-19 | not modelled |
| `TimeLogger.__enter__` | 21-23 | not modelled |
| `TimeLogger.__exit__` | 25-27 | not modelled |
| `from_image` | 30-58 | FloatImage: `Picture`, `toComplex`, `conj`, `csum`, `harmonic`, `fixedFactor`, `project`, `fromImage`; Image: `sameShape`, `fromImage` |
| `to_image` | 61-75 | FloatImage: `harmonic`, `addTerm`, `toImage`; Image: `addRow`, `toImage` |
| `_cached_spherical_harmonic` | 79-83 | FloatImage: `Harm`; Image: `SphHarm`, `CKey`, `body`, `Cache` |
| `spherical_harmonic` | 86-99 | FloatImage: `harmonic`, `needFacets`; Image: `SphHarm`, `direct`, `first`, `ckey`, `harmonic`, `cachedValue` |
| `_deltas` | 102-116 | FloatImage: `fixedFactor`, `needFacets`; Image: `deltas` |
| `_indices` | 119-127 | Image: `indices` |

## longitudinal_field.py

| Function | Lines | Definitions |
|---|---|---|
| `get_longitudinal_field_curve` | 11-48 | FloatTurn: `deg2rad`, `defaultAzimuths`, `defaultCurve`; FloatVisible: `FVec`, `dot`, `visibleArea`, `longitudinal`, `curve`; Geometry: `sum2`, `fieldXyz`, `longitudinal`, `ObsArg`, `truncZ`, `longitudinalCurve`; LongitudinalPlot: `visibleArea` |
| `plot_longitudinal_field_curve` | 51-60 | LongitudinalPlot: `LfFigure`, `azimuths`, `curve`, `plotCurve` |
| `plot_style` | 63-70 | LongitudinalPlot: `LfFigure`, `plotStyle` |

## parker_solution.py

| Function | Lines | Definitions |
|---|---|---|
| `AnalyticBase.parker_lhs` | 9-15 | FloatParker: `WindLib`; Parker: `lhs` |
| `AnalyticBase.parker_rhs` | 18-24 | FloatParker: `WindLib`, `rhs`; Parker: `rhs` |
| `AnalyticBase.find_parker_analytic` | 28-54 | FloatParker: `WindLib`, `Out`, `argument`, `branch`, `cneg`, `fabs`, `realIfClose`, `find`; Parker: `lambertW`, `branch`, `find`, `findAll` |
| `AnalyticBase.find_parker_analytic._branch` | 42-46 | FloatParker: `branch`, `find`; Parker: `branch`, `find` |
| `ParkerSolution.__init__` | 59-89 | FloatParker: `densitySonic`, `Consts`, `radiusSonic`, `speedSonic`; Parker: `Consts`, `Star`, `radiusSonic`, `speedSonic`, `speedSurface`, `densitySonic` |
| `ParkerSolution.__str__` | 91-94 | ParkerText: `dec2`, `fmtG`, `fmt`, `Params`, `text` |
| `ParkerSolution.speed` | 96-107 | FloatParker: `Out.times`, `speed`; Parker: `Arr`, `Arr.stored`, `Heap`, `RadArg`, `RadArg.contents`, `clamp`, `prepare`, `speedOf`, `speed` |
| `ParkerSolution.density` | 109-123 | FloatParker: `density`; Parker: `Arr`, `Arr.stored`, `Heap`, `RadArg`, `RadArg.contents`, `clamp`, `prepare`, `density` |
| `ParkerSolution.total_mass_flux` | 126-132 | Parker: `totalMassFlux` |

## pfss_magnetogram.py

| Function | Lines | Definitions |
|---|---|---|
| `theta_lm` | 13-56 | FloatPfss: `PFloat`; FloatRange: `thetaScale`; Legendre: `lpmv`, `spFactorial`; Pfss: `thetaScale`, `thetaLm`; Theta: `thetaDeriv` |
| `theta_lm._inner` | 22-30 | FloatPfss: `PFloat`; FloatRange: `thetaScale`; Legendre: `lpmv`, `spFactorial`; Pfss: `thetaScale`, `thetaLm` |
| `calculate_all_theta` | 59-99 | FloatAxis: `PPoint.theta`, `PPoint.dtheta`; FloatPfss: `PFloat`; FloatRange: `isFin`, `isClose`, `thetaScale`, `allTheta`; Pfss: `thetaScale`, `calcAllTheta`; Theta: `calcAllThetaOld` |
| `r_l` | 102-129 | FloatFactors: `FactorLib`, `pyPow`, `pyDiv`, `beta`; FloatPfss: `rL`; Pfss: `rL` |
| `phi_lm` | 132-144 | FloatPfss: `phiLm`, `PFloat`; Pfss: `phiLm` |
| `evaluate_spherical` | 147-235 | FloatAxis: `sub`, `neZero`, `PPoint`, `loop`, `beyond`; FloatPfss: `lt`, `minimum`, `PFloat`, `PFloat.point`, `spherical`; NdArray: `Nd`, `bshape`, `proj`, `entry`, `map`, `zip`, `inplace`, `fillLike`, `atleast1`; Pfss: `sumRows`, `singleColumn`, `evalSpherical`; PfssArrays: `Fields`, `columnArr`, `whereQuot`, `divideWhere`, `lineStep`, `lineLoop`, `clampFields`, `evalSphericalArr` |
| `evaluate_cartesian` | 238-301 | Coordinates: `toCartesian`; FloatAxis: `component`, `cartesian`; FloatPfss: `cartesian`; NdArray: `atleast1`, `flatten`, `flatIndex`, `reshape`; Pfss: `evalCartesian`; PfssArrays: `evalCartesianArr` |
| `normal_plane` | 304-318 | Slice: `normalPlane` |

## plot_lsd.py

| Function | Lines | Definitions |
|---|---|---|
| `plot_lsd_profile` | 7-29 | Lsd: `column`, `Curve`, `Ax`, `Fig`, `negative`, `errorbar`, `offset`, `drawOne`, `drawAll`, `plotProfile` |
| `wl_intervals` | 32-46 | Plots: `skips`, `wlIntervals` |
| `plot_spectrum` | 49-94 | Spectrum: `column`, `linspace01`, `slice`, `percentile`, `Scatter`, `Panel`, `scatter`, `panel`, `names`, `plotSpectrum` |
| `plot_lsd_stack` | 97-146 | Lsd: `column`, `Curve`, `negative`, `errorbar`, `YLim`, `stackAxes`, `legendAt`, `stackOne`, `stackAll`, `getYlim`, `sameLim`, `setLims`, `plotStack` |

## plot_pfss.py

| Function | Lines | Definitions |
|---|---|---|
| `plot_components` | 12-39 | Maps: `pfssComponents` |
| `plot_slice` | 42-91 | Slice: `normalPlane`, `tick`, `grid`, `Point`, `Figure`, `Close`, `GridOk`, `point`, `extremes`, `checkStream`, `plotSlice` |
| `plot_streamtraces` | 94-147 | Streams: `tr`, `ent`, `over`, `Figure`, `contourOk`, `streamOk`, `plotStreams` |

## plot_zdi.py

| Function | Lines | Definitions |
|---|---|---|
| `plot_energy_summary` | 13-129 | Summary: `pie`, `look`, `Shown`, `energySummary` |
| `plot_energy_matrix` | 132-143 | EnergyFigure: `TypesArg`, `TypesArg.list`, `axesCount`, `plotMatrix` |
| `_plot_energy` | 146-194 | EnergyFigure: `Panel`, `toInt`, `nameOf`, `pick`, `panel`; FloatColour: `zeroAll`, `block`, `removeNegative`, `colourRange`, `named`, `plotEnergy`; Plots: `entries`, `Name`, `removeNegative`, `colourRange`, `plotEnergy` |
| `plot_energy_by_degree` | 197-247 | FloatDegree: `flat`, `row`, `cumFrom`, `cumsum`, `curve`, `energyByDegree`; Plots: `matSum`, `rowSum`, `curve`, `energyByDegree` |
| `plot_zdi_components` | 250-277 | Maps: `getters`, `zdiComponents` |
| `plot_zdi_field` | 280-333 | Maps: `zdiField` |
| `plot_streamtraces` | 336-397 | Streams: `ent`, `over`, `streamOk`; ZdiStreams: `Figure`, `fieldAt`, `plotStreams` |

## plots.py

| Function | Lines | Definitions |
|---|---|---|
| `plot_equirectangular` | 13-36 | Streams: `Figure`, `contourOk`, `blackOk`, `axisTicks`; ZdiStreams: `Figure` |
| `place_colorbar_axis_right` | 38-43 | Contours: `Box`, `placeRight` |
| `plot_components` | 46-91 | Contours: `Locator`, `staircase`, `scale`, `offset`, `marks`, `inside`, `search`, `candidates`, `rawTicks`, `nonsingular`, `tickValues`, `barLocator`, `Box`, `addLines`, `Bar`, `zeroLines`, `plotComponents`; Maps: `amin`, `amax`, `Components`, `components` |
| `plot_magnetic_field` | 94-169 | Contours: `Locator`, `staircase`, `scale`, `offset`, `marks`, `inside`, `search`, `candidates`, `rawTicks`, `nonsingular`, `tickValues`, `trim`, `autoLevels`, `zeroContour`; Maps: `amin`, `amax`, `Panel`, `magneticField` |
| `add_contours` | 172-184 | Contours: `plotComponents` |
| `add_extrema` | 188-205 | Maps: `argmax`, `argmin`, `unravel`, `item`, `deg`, `Marker`, `extrema` |
| `latex_float` | 209-215 | Label: `dec3`, `stripZeros`, `frac`, `sign`, `fmtG`, `splitSep`, `latexFloat` |

## reader_writer.py

| Function | Lines | Definitions |
|---|---|---|
| `read_magnetogram_file` | 10-84 | Cli: `Disk`, `read`, `load`; ReaderWriter: `PyComplex`, `instance`, `PyEnv`, `lineFields`, `readLoop`, `readMagnetogram` |
| `write_magnetogram_file` | 87-127 | Cli: `Disk`, `put`, `write`; ReaderWriter: `dataLine`, `joinText`, `dataRow`, `columnLines`, `dataBlocks`, `writeMagnetogram` |
| `create_swmf_header` | 130-149 | ReaderWriter: `swmfHeader` |

## rotate.py

| Function | Lines | Definitions |
|---|---|---|
| `rotate_magnetogram` | 12-35 | FloatRotate: `coefOut`, `rotate`; Rotate: `coefOut`, `loopKeys`, `rotate`; Wigner: `qa`, `qb`, `wignerD` |
| `rotate_magnetogram_euler_zyz_deg` | 38-46 | Wigner: `fromEuler`, `rad`, `rotateEuler` |

## zdi_magnetogram.py

| Function | Lines | Definitions |
|---|---|---|
| `ZdiMagnetogram.__init__` | 37-66 | FloatEnergy: `ERow`; FloatField: `ZFloat`; Superseded: `Method`; Zdi: `ZRow`, `Zdi`, `lm`, `ofRow` |
| `ZdiMagnetogram.__str__` | 68-73 | Printed: `zdi` |
| `ZdiMagnetogram.degree` | 75-80 | FloatMatrix: `degree`; Legendre: `listMax`; Zdi: `degree` |
| `ZdiMagnetogram.get_radial_poloidal_field` | 82-99 | FloatField: `ZFloat`, `radialPoloidal`; FloatRange: `cadd`, `FRow`, `term`, `radial`; Legendre: `lpmv`; NdArray: `Nd`, `bshape`, `proj`, `entry`, `map`, `zip`, `inplace`, `fillLike`; Zdi: `expi`, `radialPoloidal`; ZdiArrays: `loopArr`, `fieldArr`, `radialPoloidalArr` |
| `ZdiMagnetogram.get_radial_toroidal_field` | 101-111 | FloatField: `radial`; Zdi: `radialToroidal`; ZdiArrays: `radialToroidalArr` |
| `ZdiMagnetogram.get_radial_field` | 113-123 | FloatField: `radial`; Zdi: `radial`; ZdiArrays: `addArr`, `radialArr` |
| `ZdiMagnetogram.get_azimuthal_poloidal_field` | 125-149 | FloatAxis: `sub`, `cdivReal`, `ZPoint`, `overSin`, `azimuthalPoloidal`; FloatField: `azimuthalPoloidal`; Zdi: `azimuthalPoloidal`; ZdiArrays: `fieldArr`, `azimuthalPoloidalArr` |
| `ZdiMagnetogram.get_azimuthal_toroidal_field` | 151-173 | Zdi: `cartesianToroidal`; ZdiArrays: `cartesianToroidalArr` |
| `ZdiMagnetogram.get_azimuthal_toroidal_field_new` | 175-190 | FloatField: `ZFloat`, `slopeTerm`, `RowTree`, `RowTree.rows`, `RowTree.sum`, `azimuthalToroidal`; Zdi: `azimuthalToroidal`; ZdiArrays: `rowArr`, `newaxis`, `sumLast`, `lastAxisArr`, `azimuthalToroidalArr` |
| `ZdiMagnetogram.get_azimuthal_field` | 192-202 | FloatAxis: `azimuthal`; FloatField: `azimuthal`; Zdi: `azimuthal`; ZdiArrays: `addArr`, `azimuthalArr` |
| `ZdiMagnetogram.get_polar_poloidal_field` | 204-225 | Superseded: `addRow`, `polarPoloidal` |
| `ZdiMagnetogram.get_polar_poloidal_field_new` | 227-243 | FloatField: `slopeTerm`, `RowTree`, `RowTree.rows`, `RowTree.sum`, `polarPoloidal`; Zdi: `polarPoloidal`; ZdiArrays: `rowArr`, `newaxis`, `sumLast`, `lastAxisArr`, `polarPoloidalArr` |
| `ZdiMagnetogram._calculate_lpmn` | 245-246 | Zdi: `lm` |
| `ZdiMagnetogram.get_polar_toroidal_field` | 248-267 | FloatAxis: `cdivReal`, `ZPoint`, `overSin`, `polarToroidal`; FloatField: `polarToroidal`; FloatRange: `cadd`; Zdi: `polarToroidal`; ZdiArrays: `fieldArr`, `polarToroidalArr` |
| `ZdiMagnetogram.get_polar_field` | 269-279 | FloatAxis: `polar`; FloatField: `polar`; Zdi: `polar`; ZdiArrays: `addArr`, `polarArr` |
| `ZdiMagnetogram.get_field_strength` | 281-292 | Zdi: `strength`; ZdiArrays: `strengthArr` |
| `ZdiMagnetogram.get_all` | 294-307 | FloatDescribe: `Values`; Geometry: `numericalDescription` |
| `ZdiMagnetogram.as_dipole` | 309-310 | Zdi: `dipole` |
| `ZdiMagnetogram.as_restricted` | 312-336 | Zdi: `RangeArg`, `RangeArg.pair`, `restricted` |
| `ZdiMagnetogram.copy` | 338-345 | Zdi: `copy` |
| `ZdiMagnetogram.as_poloidal` | 347-350 | Zdi: `poloidal` |
| `ZdiMagnetogram.as_toroidal` | 352-356 | Zdi: `toroidal` |
| `ZdiMagnetogram.energy` | 358-466 | Energy: `sumWhere`, `energyPol`, `totalEnergy`, `npDiv`, `energyEntries`, `axisymEntries`, `axialDipole`, `writeEntries`, `energy`; EnergyText: `percent`, `general`, `Sums`, `Sums.pol`, `Sums.total`, `put`, `table`, `summary`, `degrees`, `axisymmetric`, `report`; FloatEnergy: `pick`, `both`, `sums`, `entries`, `axisymEntries`, `energyReal`, `arrays`; FloatReport: `CLib`, `Num`, `Num.toC`, `addN`, `divN`, `closeN`, `sumN`, `pickA`, `nums`, `pol`, `totalN`, `entriesN`, `axisymN`, `energyAny`, `textE`, `textG`, `putPercent`, `rowText`, `tableN`, `printHead` |
| `ZdiMagnetogram.energy_matrix` | 469-498 | Energy: `assignAll`, `matrixIndices`, `rollCols`, `energyMatrix`; FloatMatrix: `Arr.toC`, `addArr`, `Arr.stored`, `assign`, `indices`, `roll`, `energyMatrix` |
| `ZdiMagnetogram._energy_helper` | 500-514 | Energy: `Comp`, `Comp.of`, `energyC`, `energyOf`; FloatEnergy: `conj`, `square`, `plain`, `zonal`, `energyC`, `small`, `realIfClose`, `helper`; FloatMatrix: `Arr`, `energies` |
| `ZdiMagnetogram._dplm` | 516-544 | Superseded: `roll`, `gradAt`, `gradient`, `dplm` |
| `ZdiMagnetogram.get_cartesian_field` | 546-555 | FloatField: `cartesian`; Zdi: `cartesian`; ZdiArrays: `cartesianArr` |
| `ZdiMagnetogram.get_cartesian_poloidal_field` | 557-566 | Superseded: `cartesianPoloidal` |
| `ZdiMagnetogram.get_cartesian_toroidal_field` | 568-577 | Zdi: `cartesianToroidal`; ZdiArrays: `cartesianToroidalArr` |
| `from_coefficients` | 580-593 | Zdi: `ofRow`, `fromCoefficients` |
| `_cartesian_from_spherical_helper` | 596-610 | Coordinates: `toCartesian`; FloatField: `cartesian`; FloatVector: `act`, `helper`; NdArray: `indices`, `flatten`, `flatIndex`, `reshape`; ZdiArrays: `helperArr` |
| `get_c_lm` | 613-633 | FloatRange: `div`, `ofInt`, `isFin`, `NumLib`, `fourPi`, `cLm`, `cLmOther`, `SumTree`, `SumTree.terms`, `SumTree.sum`; Legendre: `spFactorial`; Zdi: `cLm`, `cLmAlt` |
