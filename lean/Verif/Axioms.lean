import Verif.Model.Planar
import Verif.Props.Simple
import Verif.Props.Primes
import Verif.Props.Validation
import Verif.Props.Sizes
import Verif.Props.GeneralPosition
import Verif.Props.Defaults
import Verif.Props.SubSequence
import Verif.Props.Star
import Verif.Props.QuadEdge
import Verif.Props.Provenance
import Verif.Props.Convex
import Verif.Props.Separation
import Verif.Props.Slabs
import Verif.Props.Mixes
import Verif.Props.Feasible
import Verif.Props.Simplicity
import Verif.Props.Multisegments
import Verif.Props.SetOrder
import Verif.Props.Holes
import Verif.Props.Borders
import Verif.Props.HolesInside
import Verif.Props.Generic
import Verif.Props.GenericSamples
import Verif.Delaunay.Total
import Verif.Delaunay.TotalWalk
import Verif.Delaunay.TotalMouth
import Verif.Delaunay.TotalSeq
import Verif.Delaunay.TotalPoly
import Verif.Lemmas.FuelMono
import Verif.Lemmas.Support
import Verif.Props.Total
import Verif.Props.TotalSamples
import Verif.Props.EdgeOrder
import Verif.Spec.Order
import Verif.Spec.Rough
import Verif.Props.Rounding
import Verif.Props.NonEmpty
import Verif.Lemmas.Loosen
import Verif.Props.Loosen
import Verif.Props.Attainable
import Verif.Props.NonEmptySamples
import Verif.Props.Parts
import Verif.Props.PartsExact
import Verif.Props.Similarity
import Verif.Lemmas.Lower
import Verif.Props.Lower
import Verif.Props.AxisEdge
import Verif.Props.MixCounts
import Verif.Props.MixCountSamples
import Verif.Lemmas.InnerPoints
import Verif.Lemmas.HoleCount
import Verif.Props.HoleCounts
import Verif.Props.MixHoles
import Verif.Props.HoleCountSamples
import Verif.Props.Rows
import Verif.Props.RowPolygons
import Verif.Props.RowSamples
import Verif.Delaunay.OneMouth
import Verif.Props.ConcaveNonEmpty
import Verif.Props.ManyCoords
import Verif.Lemmas.ConvexChain
import Verif.Lemmas.ConvexVectors
import Verif.Lemmas.ConvexCount
import Verif.Props.ConvexSizes
import Verif.Lemmas.OneTurn
import Verif.Props.StarConvex
import Verif.Props.OneAxis
import Verif.Props.OneAxisDistinct
import Verif.Props.ConvexBox
import Verif.Props.Enough
import Verif.Props.EnoughParts
import Verif.Props.TouchRings
import Verif.Props.Corner
import Verif.Props.Farthest
import Verif.Props.PolygonBox
import Verif.Lemmas.Bow
import Verif.Props.StarCentroid
import Verif.Props.StarSimple
import Verif.Props.StarQ

/-!
# The axioms of every theorem of `MANIFEST.json` (written by `tools/manifest.py`)
-/

#print axioms HG.C01_points
#print axioms HG.C02_multipoints
#print axioms HG.C03_segments
#print axioms HG.C04_boxes
#print axioms HG.C05_rectangular
#print axioms HG.C05_rectangular_ccw
#print axioms HG.C06_triangular
#print axioms HG.C07_convex
#print axioms HG.C08_range
#print axioms HG.C09_no_clamping
#print axioms HG.C09_extent
#print axioms HG.C10_contour_sizes
#print axioms HG.C11_contours
#print axioms HG.C11_contours_branch
#print axioms HG.C11_multicontours
#print axioms HG.C11_polygons
#print axioms HG.C11_multipolygons
#print axioms HG.C12_concave
#print axioms HG.C12_not_convex
#print axioms HG.C12_left_and_right
#print axioms HG.C13_compress
#print axioms HG.C14_star
#print axioms HG.C47_polygon_border
#print axioms HG.C47_multipolygon_borders
#print axioms HG.C15_contours_partial
#print axioms HG.C15_concave_contours_partial
#print axioms HG.C15_multicontours_partial
#print axioms HG.C15_holes_partial
#print axioms HG.C15_convex_contours
#print axioms HG.C15_star_contours_partial
#print axioms HG.C15_contours_centroid_partial
#print axioms HG.C15_concave_contours_centroid_partial
#print axioms HG.C15_contours_partial
#print axioms HG.C15_concave_contours_partial
#print axioms HG.C15_multicontours_partial
#print axioms HG.C15_holes_partial
#print axioms HG.C15_contours_not_simple
#print axioms HG.C15_concave_contours_not_simple
#print axioms HG.C15_multicontours_not_simple
#print axioms HG.C15_star_contours_clockwise
#print axioms HG.C16_star
#print axioms HG.C16_centroid_inside
#print axioms HG.C16_star_shaped
#print axioms HG.C17_multisegment_sizes
#print axioms HG.C17_multisegments
#print axioms HG.C18_multisegments_partial
#print axioms HG.C18_multisegments_generic_partial
#print axioms HG.C18_multisegments_centroid_partial
#print axioms HG.C18_multisegments_cross
#print axioms HG.C19_multicontour_sizes
#print axioms HG.C20_multicontours
#print axioms HG.C21_polygon_sizes
#print axioms HG.C22_holes
#print axioms HG.C22_check_partial
#print axioms HG.C22_polygons_assertion
#print axioms HG.C23_reverse
#print axioms HG.C23_orientation
#print axioms HG.C23_holes
#print axioms HG.C24_holes_inside
#print axioms HG.C24_multipolygon_holes
#print axioms HG.C25_multipolygon_sizes
#print axioms HG.C26_multipolygons
#print axioms HG.C27_mix_sizes
#print axioms HG.C28_mix_components
#print axioms HG.C29_discrete
#print axioms HG.C30_pieces
#print axioms HG.C30_segments
#print axioms HG.C30_segments_generic
#print axioms HG.C31_single
#print axioms HG.C31_none
#print axioms HG.C31_multicontours
#print axioms HG.C31_polygons
#print axioms HG.C31_multipolygons
#print axioms HG.C31_multipolygons_nonneg
#print axioms HG.C31_mixes
#print axioms HG.C32_single
#print axioms HG.C32_multicontours
#print axioms HG.C32_polygons
#print axioms HG.C32_multipolygons_partial
#print axioms HG.C32_mixes
#print axioms HG.C32_multipolygons_negative
#print axioms HG.C33_prior_prime
#print axioms HG.C33_next_prime
#print axioms HG.C33_small
#print axioms HG.C33_three
#print axioms HG.C34_general_position
#print axioms HG.C34_no_failure
#print axioms HG.C35_distinct
#print axioms HG.C36_contours
#print axioms HG.C36_multisegments
#print axioms HG.C36_multicontours
#print axioms HG.C36_polygons
#print axioms HG.C37_multipolygons
#print axioms HG.C38_mixes
#print axioms HG.C39_default_y
#print axioms HG.C40_edge_algebra
#print axioms HG.C41_boundary
#print axioms HG.C42_round
#print axioms HG.C42_single
#print axioms HG.C43_max_hull
#print axioms HG.C43_no_right_turn
#print axioms HG.C43_max_hull_nodup
#print axioms HG.C44_sub_sequence
#print axioms HG.C44_nodup
#print axioms HG.C45_set_order
#print axioms HG.C45_edge_order_partial
#print axioms HG.C45_edges_contours_partial
#print axioms HG.C45_edges_polygons_partial
#print axioms HG.C46_star_one_direction
#print axioms HG.C46_concave_not_star
#print axioms HG.C47_polygon_border
#print axioms HG.C47_multipolygon_borders
#print axioms HG.C48_points
#print axioms HG.C48_boxes
#print axioms HG.C48_convex_contours
#print axioms HG.C48_star_contours
#print axioms HG.C48_multipoints
#print axioms HG.C48_contours
#print axioms HG.C48_concave_contours
#print axioms HG.C48_multisegments
#print axioms HG.C48_multicontours
#print axioms HG.C48_polygons
#print axioms HG.C48_multipolygons
#print axioms HG.C48_mixes
#print axioms HG.C49_polygons_without_holes
#print axioms HG.C50_contours
#print axioms HG.C50_polygons
#print axioms HG.C50_multipolygons
#print axioms HG.C50_mixes
#print axioms HG.C51_contours
#print axioms HG.C51_multisegments
#print axioms HG.C51_mixes
#print axioms HG.C52_multicontours
#print axioms HG.C52_holes
#print axioms HG.C52_multipolygons
#print axioms HG.C52_mixes
#print axioms HG.C53_triangles
#print axioms HG.C53_rectangles
#print axioms HG.C53_contours
#print axioms HG.C53_multisegments
#print axioms HG.C54_simple
#print axioms HG.C54_multipoints
#print axioms HG.C54_contours
#print axioms HG.C54_multisegments
#print axioms HG.C54_multicontours
#print axioms HG.C54_polygons
#print axioms HG.C54_multipolygons
#print axioms HG.C54_mixes
#print axioms HG.C54_concave_contours
#print axioms HG.C55_simple
#print axioms HG.C55_multipoints
#print axioms HG.C55_contours
#print axioms HG.C55_multisegments
#print axioms HG.C55_multicontours
#print axioms HG.C55_polygons
#print axioms HG.C55_multipolygons
#print axioms HG.C55_mixes
#print axioms HG.C56_sizes
#print axioms HG.C56_lower_bound
#print axioms HG.C57_multipolygons
#print axioms HG.C57_mixes
#print axioms HG.C57_mix_polygons
#print axioms HG.C57_multipolygon_polygons
#print axioms HG.C58_points
#print axioms HG.C58_multipoints
#print axioms HG.C58_segments
#print axioms HG.C58_boxes
#print axioms HG.C58_triangular_contours
#print axioms HG.C58_rectangular_contours
#print axioms HG.C58_contours
#print axioms HG.C58_convex_contours
#print axioms HG.C58_star_contours
#print axioms HG.C58_concave_contours
#print axioms HG.C58_multisegments
#print axioms HG.C58_multicontours
#print axioms HG.C58_polygons
#print axioms HG.C58_multipolygons
#print axioms HG.C58_mixes
#print axioms HG.C59_multipoints
#print axioms HG.C59_contours
#print axioms HG.C59_multisegments
#print axioms HG.C59_multicontours
#print axioms HG.C59_polygons
#print axioms HG.C59_multipolygons
#print axioms HG.C59_mixes
#print axioms HG.C60_axis_edge
#print axioms HG.C61_mix_counts
#print axioms HG.C61_multisegment_counts
#print axioms HG.C61_multicontour_counts
#print axioms HG.C61_multipolygon_counts
#print axioms HG.C62_polygons
#print axioms HG.C62_multipolygons
#print axioms HG.C62_mixes
#print axioms HG.C63_mixes
#print axioms HG.C63_multipolygons
#print axioms HG.C64_concave_contours
#print axioms HG.C64_polygons
#print axioms HG.C64_multicontours
#print axioms HG.C64_multipolygons
#print axioms HG.C64_mixes
#print axioms HG.C65_convex_contours
#print axioms HG.C65_contours
#print axioms HG.C65_contours_exactly
#print axioms HG.C66_star_convex
#print axioms HG.C66_star_convex_centroid
#print axioms HG.C67_one_axis
#print axioms HG.C68_contours
#print axioms HG.C68_contours_branch
#print axioms HG.C68_multicontours
#print axioms HG.C68_polygons
#print axioms HG.C68_multipolygons
#print axioms HG.C68_mixes
#print axioms HG.C69_bounding_box
#print axioms HG.C69_span
#print axioms HG.C69_integers
#print axioms HG.C70_contours
#print axioms HG.C70_multicontours
#print axioms HG.C70_polygons
#print axioms HG.C70_multipolygons
#print axioms HG.C70_mixes
#print axioms HG.C70_convex_contours
#print axioms HG.C70_all_contours
#print axioms HG.C71_multicontours
#print axioms HG.C71_multipolygons
#print axioms HG.C72_multicontours
#print axioms HG.C72_holes
#print axioms HG.C72_multipolygon_holes
#print axioms HG.C72_mix_holes
#print axioms HG.C73_polygons
#print axioms HG.C73_multipolygons
#print axioms HG.C73_mixes
#print axioms HG.C73_concave_contours
#print axioms HG.C73_concave_contours_centroid
#print axioms HG.C73_multicontours
#print axioms HG.C74_polygons
#print axioms HG.C74_multipolygons
#print axioms HG.C74_mixes
#print axioms HG.C74_concave_contours
#print axioms HG.C74_concave_contours_centroid
#print axioms HG.C74_triangles
#print axioms HG.C75_polygons
#print axioms HG.C75_multipolygons
#print axioms HG.C75_mixes
#print axioms HG.C75_concave_contours
#print axioms HG.C75_concave_contours_centroid
#print axioms HG.C75_integers
