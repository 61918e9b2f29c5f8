import Verif.Py.Basic
import Verif.Model.Coefficients
import Verif.Model.Elements
import Verif.Lemmas.Coefficients
import Verif.Lemmas.CoefOps
import Verif.Model.Heap
import Verif.Spec.Cuts
import Verif.Spec.Heap
import Verif.Lemmas.Heap
import Verif.Lemmas.HeapWorld
import Verif.Props.Heap
import Verif.Spec.Coefficients
import Verif.Props.Container
import Verif.Props.ContainerArrays
import Verif.Props.ContainerAlgebra
import Verif.Props.ContainerMore
import Verif.Props.SplitAt
import Verif.Py.Float
import Verif.Py.Text
import Verif.Model.ReaderWriter
import Verif.Spec.Files
import Verif.Lemmas.Float
import Verif.Lemmas.Text
import Verif.Lemmas.NumText
import Verif.Lemmas.Grammar
import Verif.Lemmas.Reader
import Verif.Lemmas.Writer
import Verif.Props.Reader
import Verif.Props.Writer
import Verif.Spec.Legendre
import Verif.Spec.Fields
import Verif.Lemmas.Legendre
import Verif.Lemmas.LegendreInt
import Verif.Model.Legendre
import Verif.Model.Coordinates
import Verif.Model.Zdi
import Verif.Model.Energy
import Verif.Model.Pfss
import Verif.Model.Converter
import Verif.Lemmas.Zdi
import Verif.Props.Coordinates
import Verif.Props.Zdi
import Verif.Props.Energy
import Verif.Lemmas.Parseval
import Verif.Props.Parseval
import Verif.Spec.Harmonics
import Verif.Lemmas.Rows
import Verif.Lemmas.Pfss
import Verif.Lemmas.ZdiSet
import Verif.Props.Pfss
import Verif.Props.Linear
import Verif.Props.Converter
import Verif.Props.Conversion
import Verif.Spec.Geometry
import Verif.Model.Geometry
import Verif.Lemmas.Geometry
import Verif.Props.Geometry
import Verif.Props.Longitudinal
import Verif.Props.Describe
import Verif.Model.Fibonacci
import Verif.Props.Fibonacci
import Verif.Model.Parker
import Verif.Props.Parker
import Verif.Model.Rotate
import Verif.Props.Rotate
import Verif.Model.Image
import Verif.Props.Cache
import Verif.Props.Image
import Verif.Py.Arith
import Verif.Model.Cli
import Verif.Lemmas.Cli
import Verif.Props.Cli
import Verif.Model.Ticks
import Verif.Props.Ticks
import Verif.Model.Plots
import Verif.Props.Plots
import Verif.Model.Analysis
import Verif.Lemmas.Riemann
import Verif.Props.Analysis
import Verif.Props.AnalysisLimit
import Verif.Props.ImageLimit
import Verif.Model.Wigner
import Verif.Lemmas.Wigner
import Verif.Props.Wigner
import Verif.Lemmas.Transport
import Verif.Lemmas.Degrees
import Verif.Props.Equivariance
import Verif.Model.Maps
import Verif.Props.Maps
import Verif.Model.Label
import Verif.Props.Label
import Verif.Model.Summary
import Verif.Props.Summary
import Verif.Props.Reachable
import Verif.Model.PlotCmd
import Verif.Props.PlotCmd
import Verif.Props.MapsPfss
import Verif.Model.Lsd
import Verif.Props.Lsd
import Verif.Props.LsdStack
import Verif.Model.Spectrum
import Verif.Props.Spectrum
import Verif.Model.Slice
import Verif.Props.Slice
import Verif.Model.Streams
import Verif.Props.Streams
import Verif.Model.Superseded
import Verif.Props.Superseded
import Verif.Model.Theta
import Verif.Props.Theta
import Verif.Model.Noise
import Verif.Props.Noise
import Verif.Model.ZdiStreams
import Verif.Props.ZdiStreams
import Verif.Model.TickMarks
import Verif.Props.TickMarks
import Verif.Model.LongitudinalPlot
import Verif.Lemmas.Rotation
import Verif.Props.LongitudinalPlot
import Verif.Props.Rotation
import Verif.Model.EnergyFigure
import Verif.Props.EnergyFigure
import Verif.Lemmas.SphereLimit
import Verif.Props.SphereLimit
import Verif.Lemmas.Disc
import Verif.Props.Disc
import Verif.Lemmas.DiscNull
import Verif.Lemmas.FunkHecke
import Verif.Lemmas.DiscRow
import Verif.Lemmas.LegendreRec
import Verif.Props.DiscFormula
import Verif.Model.Facets
import Verif.Props.Facets
import Verif.Model.Argv
import Verif.Lemmas.Argv
import Verif.Props.Argv
import Verif.Props.ArgvMore
import Verif.Model.Printed
import Verif.Props.Printed
import Verif.Lemmas.Equidist
import Verif.Lemmas.SphereMean
import Verif.Props.FibonacciMean
import Verif.Model.Contours
import Verif.Props.Contours
import Verif.Lemmas.MaxPrinciple
import Verif.Lemmas.SolidHarmonic
import Verif.Lemmas.PfssCartesian
import Verif.Lemmas.ShellField
import Verif.Props.PfssUnique
import Verif.Props.PfssStrength
import Verif.Model.NdArray
import Verif.Model.PfssArrays
import Verif.Lemmas.NdArray
import Verif.Props.PfssArrays
import Verif.Model.ZdiArrays
import Verif.Props.ZdiArrays
import Verif.Lemmas.Identify
import Verif.Props.Identify
import Verif.Props.PfssFlux
import Verif.Lemmas.OpenFlux
import Verif.Props.PfssOpen
import Verif.Model.FloatRange
import Verif.Lemmas.FloatRange
import Verif.Props.FloatRange
import Verif.Model.FloatAxis
import Verif.Props.FloatAxis
import Verif.Model.ParkerText
import Verif.Props.ParkerText
import Verif.Model.FloatSets
import Verif.Props.FloatSets
import Verif.Model.FloatCoords
import Verif.Props.FloatCoords
import Verif.Props.FloatRoundTrip
import Verif.Props.EnergyText
import Verif.Model.FloatField
import Verif.Lemmas.FloatError
import Verif.Props.FloatField
import Verif.Props.Refusals
import Verif.Lemmas.Addition
import Verif.Props.FieldSize
import Verif.Model.FloatPfss
import Verif.Props.FloatPfss
import Verif.Props.PfssEnergy
import Verif.Lemmas.FloatRound
import Verif.Model.FloatEnergy
import Verif.Lemmas.FloatEnergy
import Verif.Props.FloatEnergy
import Verif.Model.FloatFactors
import Verif.Lemmas.FloatFactors
import Verif.Props.FloatFactors
import Verif.Model.FloatFib
import Verif.Props.FloatFib
import Verif.Model.FloatClose
import Verif.Props.FloatClose
import Verif.Props.ParkerFlow
import Verif.Props.ParkerStars
import Verif.Model.FloatParker
import Verif.Props.FloatParker
import Verif.Props.FloatWind
import Verif.Props.FloatDescribe
import Verif.Props.FloatSphere
import Verif.Props.FloatVisible
import Verif.Props.FloatLongitudinal
import Verif.Props.FloatVector
import Verif.Props.FloatSeen
import Verif.Props.FloatTurn
import Verif.Model.FloatTurn
import Verif.Model.FloatFold
import Verif.Props.FloatFold
import Verif.Model.FloatRotate
import Verif.Props.FloatRotate
import Verif.Model.FloatImage
import Verif.Props.FloatImage
import Verif.Props.FloatImageLimit
import Verif.Props.FloatMatrix
import Verif.Props.FloatReport
import Verif.Props.FloatDegree
import Verif.Props.FloatColour
