import Verif.Model.Planar
import Verif.Props.Simple
import Verif.Props.Primes
import Verif.Props.Validation
import Verif.Props.Sizes
import Verif.Props.GeneralPosition
import Verif.Props.Defaults
import Verif.Props.SubSequence
import Verif.Props.Star
import Verif.Props.QuadEdge
import Verif.Props.Provenance
import Verif.Props.Convex
import Verif.Props.Separation
import Verif.Props.Slabs
import Verif.Props.Mixes
import Verif.Props.Feasible
import Verif.Props.Simplicity
import Verif.Props.Multisegments
import Verif.Props.SetOrder
import Verif.Props.Holes
import Verif.Props.Borders
import Verif.Props.HolesInside
import Verif.Props.Generic
import Verif.Props.GenericSamples
import Verif.Delaunay.Total
import Verif.Delaunay.TotalWalk
import Verif.Delaunay.TotalMouth
import Verif.Delaunay.TotalSeq
import Verif.Delaunay.TotalPoly
import Verif.Lemmas.FuelMono
import Verif.Lemmas.Support
import Verif.Props.Total
import Verif.Props.TotalSamples
import Verif.Props.EdgeOrder
import Verif.Spec.Order
import Verif.Spec.Rough
import Verif.Props.Rounding
import Verif.Props.NonEmpty
import Verif.Lemmas.Loosen
import Verif.Props.Loosen
import Verif.Props.Attainable
import Verif.Props.NonEmptySamples
import Verif.Props.Parts
import Verif.Props.PartsExact
import Verif.Props.Similarity
import Verif.Lemmas.Lower
import Verif.Props.Lower
import Verif.Props.AxisEdge
import Verif.Props.MixCounts
import Verif.Props.MixCountSamples
import Verif.Lemmas.InnerPoints
import Verif.Lemmas.HoleCount
import Verif.Props.HoleCounts
import Verif.Props.MixHoles
import Verif.Props.HoleCountSamples
import Verif.Props.Rows
import Verif.Props.RowPolygons
import Verif.Props.RowSamples
import Verif.Delaunay.OneMouth
import Verif.Props.ConcaveNonEmpty
import Verif.Props.ManyCoords
import Verif.Lemmas.ConvexChain
import Verif.Lemmas.ConvexVectors
import Verif.Lemmas.ConvexCount
import Verif.Props.ConvexSizes
import Verif.Lemmas.OneTurn
import Verif.Props.StarConvex
import Verif.Props.OneAxis
import Verif.Props.OneAxisDistinct
import Verif.Props.ConvexBox
import Verif.Props.Enough
import Verif.Props.EnoughParts
import Verif.Props.TouchRings
import Verif.Props.Corner
import Verif.Props.Farthest
import Verif.Props.PolygonBox
import Verif.Lemmas.Bow
import Verif.Props.StarCentroid
import Verif.Props.StarSimple
import Verif.Props.StarQ
import Verif.Axioms
