{
 "claims": [
  {
   "property": "C01",
   "status": "proved",
   "theorems": [
    "HG.C01_points"
   ],
   "note": ""
  },
  {
   "property": "C02",
   "status": "proved",
   "theorems": [
    "HG.C02_multipoints"
   ],
   "note": ""
  },
  {
   "property": "C03",
   "status": "proved",
   "theorems": [
    "HG.C03_segments"
   ],
   "note": ""
  },
  {
   "property": "C04",
   "status": "proved",
   "theorems": [
    "HG.C04_boxes"
   ],
   "note": ""
  },
  {
   "property": "C05",
   "status": "proved",
   "theorems": [
    "HG.C05_rectangular",
    "HG.C05_rectangular_ccw"
   ],
   "note": ""
  },
  {
   "property": "C06",
   "status": "proved",
   "theorems": [
    "HG.C06_triangular"
   ],
   "note": ""
  },
  {
   "property": "C07",
   "status": "proved",
   "theorems": [
    "HG.C07_convex"
   ],
   "note": "assumes that the dependency computes convex hulls (contract met by HG.sample_hullOk)"
  },
  {
   "property": "C08",
   "status": "proved",
   "theorems": [
    "HG.C08_range"
   ],
   "note": "any arithmetic; assumes that the convex hull of the dependency consists of given points"
  },
  {
   "property": "C09",
   "status": "proved",
   "theorems": [
    "HG.C09_no_clamping",
    "HG.C09_extent"
   ],
   "note": "the extent assumes that atan2 respects quadrants (met by HG.sample_quadrantOk)"
  },
  {
   "property": "C10",
   "status": "proved",
   "theorems": [
    "HG.C10_contour_sizes"
   ],
   "note": ""
  },
  {
   "property": "C11",
   "status": "proved",
   "theorems": [
    "HG.C11_contours",
    "HG.C11_contours_branch",
    "HG.C11_multicontours",
    "HG.C11_polygons",
    "HG.C11_multipolygons"
   ],
   "note": "polygons: a Python set enumerates its elements in some order"
  },
  {
   "property": "C12",
   "status": "proved",
   "theorems": [
    "HG.C12_concave",
    "HG.C12_not_convex",
    "HG.C12_left_and_right"
   ],
   "note": "a left and a right turn: if no three different points of given coordinates are collinear unless their line is horizontal or vertical"
  },
  {
   "property": "C13",
   "status": "proved",
   "theorems": [
    "HG.C13_compress"
   ],
   "note": ""
  },
  {
   "property": "C14",
   "status": "partial",
   "theorems": [
    "HG.C14_star",
    "HG.C47_polygon_border",
    "HG.C47_multipolygon_borders",
    "HG.C15_contours_partial",
    "HG.C15_concave_contours_partial",
    "HG.C15_multicontours_partial",
    "HG.C15_holes_partial"
   ],
   "note": "star contours and borders without conditions; the others when drawn points are on one line only if they share a coordinate"
  },
  {
   "property": "C15",
   "status": "partial",
   "theorems": [
    "HG.C15_convex_contours",
    "HG.C15_star_contours_partial",
    "HG.C15_contours_centroid_partial",
    "HG.C15_concave_contours_centroid_partial",
    "HG.C15_contours_partial",
    "HG.C15_concave_contours_partial",
    "HG.C15_multicontours_partial",
    "HG.C15_holes_partial",
    "HG.C15_contours_not_simple",
    "HG.C15_concave_contours_not_simple",
    "HG.C15_multicontours_not_simple",
    "HG.C15_star_contours_clockwise"
   ],
   "note": "proved for convex contours, for star contours (simple, but not counterclockwise) with correctly computed centroids, and for contours, concave contours, multicontours and holes when drawn points are on one line only if they share a coordinate; false of the code otherwise: concrete draws give self-crossing contours and a clockwise star triangle"
  },
  {
   "property": "C16",
   "status": "proved",
   "theorems": [
    "HG.C16_star",
    "HG.C16_centroid_inside",
    "HG.C16_star_shaped"
   ],
   "note": ""
  },
  {
   "property": "C17",
   "status": "proved",
   "theorems": [
    "HG.C17_multisegment_sizes",
    "HG.C17_multisegments"
   ],
   "note": "endpoints assume that the dependency computes convex hulls (contract met by HG.sample_hullOk)"
  },
  {
   "property": "C18",
   "status": "partial",
   "theorems": [
    "HG.C18_multisegments_partial",
    "HG.C18_multisegments_generic_partial",
    "HG.C18_multisegments_centroid_partial",
    "HG.C18_multisegments_cross"
   ],
   "note": "false of the code when the multisegment consists of edges of a self-crossing contour (concrete draw); proved otherwise, and when drawn points are on one line only if they share a coordinate (then only star contours without area, for which no centroid exists, remain)"
  },
  {
   "property": "C19",
   "status": "proved",
   "theorems": [
    "HG.C19_multicontour_sizes"
   ],
   "note": ""
  },
  {
   "property": "C20",
   "status": "proved",
   "theorems": [
    "HG.C20_multicontours"
   ],
   "note": ""
  },
  {
   "property": "C21",
   "status": "proved",
   "theorems": [
    "HG.C21_polygon_sizes"
   ],
   "note": ""
  },
  {
   "property": "C22",
   "status": "partial",
   "theorems": [
    "HG.C22_holes",
    "HG.C22_check_partial",
    "HG.C22_polygons_assertion"
   ],
   "note": "separation of the holes is proved; the claim on the internal check is false of the code (a concrete draw raises AssertionError) and proved when drawn points are on one line only if they share a coordinate"
  },
  {
   "property": "C23",
   "status": "proved",
   "theorems": [
    "HG.C23_reverse",
    "HG.C23_orientation",
    "HG.C23_holes"
   ],
   "note": ""
  },
  {
   "property": "C24",
   "status": "proved",
   "theorems": [
    "HG.C24_holes_inside",
    "HG.C24_multipolygon_holes"
   ],
   "note": "assumes that coin_change returns summands, that a set enumerates its elements, and that the nearest segment meets the query if some segment does"
  },
  {
   "property": "C25",
   "status": "proved",
   "theorems": [
    "HG.C25_multipolygon_sizes"
   ],
   "note": ""
  },
  {
   "property": "C26",
   "status": "proved",
   "theorems": [
    "HG.C26_multipolygons"
   ],
   "note": ""
  },
  {
   "property": "C27",
   "status": "proved",
   "theorems": [
    "HG.C27_mix_sizes"
   ],
   "note": ""
  },
  {
   "property": "C28",
   "status": "proved",
   "theorems": [
    "HG.C28_mix_components"
   ],
   "note": ""
  },
  {
   "property": "C29",
   "status": "proved",
   "theorems": [
    "HG.C29_discrete"
   ],
   "note": "assumes that the dependency computes convex hulls (contract met by HG.sample_hullOk)"
  },
  {
   "property": "C30",
   "status": "proved",
   "theorems": [
    "HG.C30_pieces",
    "HG.C30_segments",
    "HG.C30_segments_generic"
   ],
   "note": "assumes that the dependency computes convex hulls (contract met by HG.sample_hullOk); segments of one piece: C30_segments assumes it of `multisegments`, C30_segments_generic uses C18 for coordinates without slanted collinear triples and true centroids, except if some star contour has the area zero (the dependency divides by zero there, the model has a total function)"
  },
  {
   "property": "C31",
   "status": "proved",
   "theorems": [
    "HG.C31_single",
    "HG.C31_none",
    "HG.C31_multicontours",
    "HG.C31_polygons",
    "HG.C31_multipolygons",
    "HG.C31_multipolygons_nonneg",
    "HG.C31_mixes"
   ],
   "note": "the exception of the constructors is never another one, except for multipolygons with a negative min_holes_size and no max_holes_size (AssertionError, C32_multipolygons_negative)"
  },
  {
   "property": "C32",
   "status": "partial",
   "theorems": [
    "HG.C32_single",
    "HG.C32_multicontours",
    "HG.C32_polygons",
    "HG.C32_multipolygons_partial",
    "HG.C32_mixes",
    "HG.C32_multipolygons_negative"
   ],
   "note": "proved for every constructor; for multipolygons with a negative min_holes_size and no max_holes_size the claim is false of the code (C32_multipolygons_negative)"
  },
  {
   "property": "C33",
   "status": "proved",
   "theorems": [
    "HG.C33_prior_prime",
    "HG.C33_next_prime",
    "HG.C33_small",
    "HG.C33_three"
   ],
   "note": ""
  },
  {
   "property": "C34",
   "status": "proved",
   "theorems": [
    "HG.C34_general_position",
    "HG.C34_no_failure"
   ],
   "note": ""
  },
  {
   "property": "C35",
   "status": "proved",
   "theorems": [
    "HG.C35_distinct"
   ],
   "note": ""
  },
  {
   "property": "C36",
   "status": "proved",
   "theorems": [
    "HG.C36_contours",
    "HG.C36_multisegments",
    "HG.C36_multicontours",
    "HG.C36_polygons"
   ],
   "note": "an exception of a draw can only come from the geometric construction itself, which then got enough points; assumes that the dependency computes convex hulls for polygons"
  },
  {
   "property": "C37",
   "status": "proved",
   "theorems": [
    "HG.C37_multipolygons"
   ],
   "note": "an exception of a draw can only come from the geometric construction itself; min_holes_size must not be negative (see C32)"
  },
  {
   "property": "C38",
   "status": "proved",
   "theorems": [
    "HG.C38_mixes"
   ],
   "note": "an exception of a draw can only come from the geometric construction itself; x and y must have the same number of values"
  },
  {
   "property": "C39",
   "status": "proved",
   "theorems": [
    "HG.C39_default_y"
   ],
   "note": ""
  },
  {
   "property": "C40",
   "status": "proved",
   "theorems": [
    "HG.C40_edge_algebra"
   ],
   "note": ""
  },
  {
   "property": "C41",
   "status": "proved",
   "theorems": [
    "HG.C41_boundary"
   ],
   "note": ""
  },
  {
   "property": "C42",
   "status": "proved",
   "theorems": [
    "HG.C42_round",
    "HG.C42_single"
   ],
   "note": ""
  },
  {
   "property": "C43",
   "status": "proved",
   "theorems": [
    "HG.C43_max_hull",
    "HG.C43_no_right_turn",
    "HG.C43_max_hull_nodup"
   ],
   "note": "for at least two different points"
  },
  {
   "property": "C44",
   "status": "proved",
   "theorems": [
    "HG.C44_sub_sequence",
    "HG.C44_nodup"
   ],
   "note": ""
  },
  {
   "property": "C45",
   "status": "partial",
   "theorems": [
    "HG.C45_set_order",
    "HG.C45_edge_order_partial",
    "HG.C45_edges_contours_partial",
    "HG.C45_edges_polygons_partial"
   ],
   "note": "sets of points: equality of the constructors' results for all orders; sets of edges: equality of the constructors' results for all orders when drawn points are on one line only if they share a coordinate; otherwise queues are equal if no two edges have the same endpoints"
  },
  {
   "property": "C46",
   "status": "proved",
   "theorems": [
    "HG.C46_star_one_direction",
    "HG.C46_concave_not_star"
   ],
   "note": ""
  },
  {
   "property": "C47",
   "status": "proved",
   "theorems": [
    "HG.C47_polygon_border",
    "HG.C47_multipolygon_borders"
   ],
   "note": "assumes that coin_change returns summands"
  },
  {
   "property": "C48",
   "status": "proved",
   "theorems": [
    "HG.C48_points",
    "HG.C48_boxes",
    "HG.C48_convex_contours",
    "HG.C48_star_contours",
    "HG.C48_multipoints",
    "HG.C48_contours",
    "HG.C48_concave_contours",
    "HG.C48_multisegments",
    "HG.C48_multicontours",
    "HG.C48_polygons",
    "HG.C48_multipolygons",
    "HG.C48_mixes"
   ],
   "note": "assumes the contracts of coin_change, set enumeration, the convex hull and the intersection check; .outOfFuel is the model's name for a loop that does not end (excluded by C50)"
  },
  {
   "property": "C49",
   "status": "proved",
   "theorems": [
    "HG.C49_polygons_without_holes"
   ],
   "note": "assumes the contracts of coin_change and the convex hull"
  },
  {
   "property": "C50",
   "status": "proved",
   "theorems": [
    "HG.C50_contours",
    "HG.C50_polygons",
    "HG.C50_multipolygons",
    "HG.C50_mixes"
   ],
   "note": "assumes the contracts of coin_change, set enumeration, the convex hull and the intersection check"
  },
  {
   "property": "C51",
   "status": "proved",
   "theorems": [
    "HG.C51_contours",
    "HG.C51_multisegments",
    "HG.C51_mixes"
   ],
   "note": "any arithmetic; assumes that the convex hull of the dependency consists of given points and that a set enumerates its elements; the other constructors: C01-C05, C08, C11"
  },
  {
   "property": "C52",
   "status": "proved",
   "theorems": [
    "HG.C52_multicontours",
    "HG.C52_holes",
    "HG.C52_multipolygons",
    "HG.C52_mixes"
   ],
   "note": "any arithmetic; same assumptions as C51"
  },
  {
   "property": "C53",
   "status": "proved",
   "theorems": [
    "HG.C53_triangles",
    "HG.C53_rectangles",
    "HG.C53_contours",
    "HG.C53_multisegments"
   ],
   "note": "multisegments: for a sweep that is exact on crossings and overlaps"
  },
  {
   "property": "C54",
   "status": "proved",
   "theorems": [
    "HG.C54_simple",
    "HG.C54_multipoints",
    "HG.C54_contours",
    "HG.C54_multisegments",
    "HG.C54_multicontours",
    "HG.C54_polygons",
    "HG.C54_multipolygons",
    "HG.C54_mixes",
    "HG.C54_concave_contours"
   ],
   "note": "for the classes of bounds in the statement"
  },
  {
   "property": "C55",
   "status": "proved",
   "theorems": [
    "HG.C55_simple",
    "HG.C55_multipoints",
    "HG.C55_contours",
    "HG.C55_multisegments",
    "HG.C55_multicontours",
    "HG.C55_polygons",
    "HG.C55_multipolygons",
    "HG.C55_mixes"
   ],
   "note": "any arithmetic"
  },
  {
   "property": "C56",
   "status": "proved",
   "theorems": [
    "HG.C56_sizes",
    "HG.C56_lower_bound"
   ],
   "note": "C56_lower_bound is the concrete case of hexagons"
  },
  {
   "property": "C57",
   "status": "proved",
   "theorems": [
    "HG.C57_multipolygons",
    "HG.C57_mixes",
    "HG.C57_mix_polygons",
    "HG.C57_multipolygon_polygons"
   ],
   "note": "the first two for any arithmetic"
  },
  {
   "property": "C58",
   "status": "proved",
   "theorems": [
    "HG.C58_points",
    "HG.C58_multipoints",
    "HG.C58_segments",
    "HG.C58_boxes",
    "HG.C58_triangular_contours",
    "HG.C58_rectangular_contours",
    "HG.C58_contours",
    "HG.C58_convex_contours",
    "HG.C58_star_contours",
    "HG.C58_concave_contours",
    "HG.C58_multisegments",
    "HG.C58_multicontours",
    "HG.C58_polygons",
    "HG.C58_multipolygons",
    "HG.C58_mixes"
   ],
   "note": "exact arithmetic; hypotheses on third-party functions in Spec.SameTools"
  },
  {
   "property": "C59",
   "status": "proved",
   "theorems": [
    "HG.C59_multipoints",
    "HG.C59_contours",
    "HG.C59_multisegments",
    "HG.C59_multicontours",
    "HG.C59_polygons",
    "HG.C59_multipolygons",
    "HG.C59_mixes"
   ],
   "note": "Inclusion of strategies in the lower bounds, for any arithmetic; the room for a prime is necessary by C56_lower_bound."
  },
  {
   "property": "C60",
   "status": "proved",
   "theorems": [
    "HG.C60_axis_edge"
   ],
   "note": "Exact arithmetic; the hull and the angle function are dependencies described by HullOk and SectorOk. Triangles are a genuine exception (example beside the theorem)."
  },
  {
   "property": "C61",
   "status": "proved",
   "theorems": [
    "HG.C61_mix_counts",
    "HG.C61_multisegment_counts",
    "HG.C61_multicontour_counts",
    "HG.C61_multipolygon_counts"
   ],
   "note": "Exact arithmetic; minimal border sizes at most 3, maximal border sizes at least 5, no minimal number of holes; coordinates in generic position as in C54."
  },
  {
   "property": "C62",
   "status": "proved",
   "theorems": [
    "HG.C62_polygons",
    "HG.C62_multipolygons",
    "HG.C62_mixes"
   ],
   "note": "Exact arithmetic; coordinates in generic position as in C54; lower bounds on border and hole sizes at most 3; p is any prime with 6k+3 <= p."
  },
  {
   "property": "C63",
   "status": "proved",
   "theorems": [
    "HG.C63_mixes",
    "HG.C63_multipolygons"
   ],
   "note": "Any arithmetic. In mixes neighbouring parts which are both segments or polygons are excluded since they may share a coordinate there."
  },
  {
   "property": "C64",
   "status": "proved",
   "theorems": [
    "HG.C64_concave_contours",
    "HG.C64_polygons",
    "HG.C64_multicontours",
    "HG.C64_multipolygons",
    "HG.C64_mixes"
   ],
   "note": "Exact arithmetic, enough steps for the loops (explicit bound). Removes the hypothesis on generic coordinates from C54 (concave contours), C61 (multicontours) and C62, at the price of more coordinates."
  },
  {
   "property": "C65",
   "status": "proved",
   "theorems": [
    "HG.C65_convex_contours",
    "HG.C65_contours",
    "HG.C65_contours_exactly"
   ],
   "note": "Exact arithmetic; the convex hull and atan2 of the context enter through their specifications (atan2 is increasing in the slope on the right half-plane)."
  },
  {
   "property": "C66",
   "status": "proved",
   "theorems": [
    "HG.C66_star_convex",
    "HG.C66_star_convex_centroid"
   ],
   "note": "Exact arithmetic; strengthens C46 from the turns at single vertices to the whole polygon."
  },
  {
   "property": "C67",
   "status": "proved",
   "theorems": [
    "HG.C67_one_axis"
   ],
   "note": "Exact arithmetic; sharpens C60, which says that there is such an edge."
  },
  {
   "property": "C68",
   "status": "proved",
   "theorems": [
    "HG.C68_contours",
    "HG.C68_contours_branch",
    "HG.C68_multicontours",
    "HG.C68_polygons",
    "HG.C68_multipolygons",
    "HG.C68_mixes"
   ],
   "note": "Any arithmetic.  Convex contours are the subject of C67."
  },
  {
   "property": "C69",
   "status": "proved",
   "theorems": [
    "HG.C69_bounding_box",
    "HG.C69_span",
    "HG.C69_integers"
   ],
   "note": "Exact arithmetic."
  },
  {
   "property": "C70",
   "status": "proved",
   "theorems": [
    "HG.C70_contours",
    "HG.C70_multicontours",
    "HG.C70_polygons",
    "HG.C70_multipolygons",
    "HG.C70_mixes",
    "HG.C70_convex_contours",
    "HG.C70_all_contours"
   ],
   "note": "The converse direction of C36 and C64."
  },
  {
   "property": "C71",
   "status": "proved",
   "theorems": [
    "HG.C71_multicontours",
    "HG.C71_multipolygons"
   ],
   "note": "The converse direction of C36, C37 and C61."
  },
  {
   "property": "C72",
   "status": "proved",
   "theorems": [
    "HG.C72_multicontours",
    "HG.C72_holes",
    "HG.C72_multipolygon_holes",
    "HG.C72_mix_holes"
   ],
   "note": "Strengthens C20 and C22 from pairs to all contours; an example shows that rings of pairwise touching triangles exist."
  },
  {
   "property": "C73",
   "status": "proved",
   "theorems": [
    "HG.C73_polygons",
    "HG.C73_multipolygons",
    "HG.C73_mixes",
    "HG.C73_concave_contours",
    "HG.C73_concave_contours_centroid",
    "HG.C73_multicontours"
   ],
   "note": "A limit of the generated shapes that the documentation does not mention; an example shows a triangle that is never generated."
  },
  {
   "property": "C74",
   "status": "proved",
   "theorems": [
    "HG.C74_polygons",
    "HG.C74_multipolygons",
    "HG.C74_mixes",
    "HG.C74_concave_contours",
    "HG.C74_concave_contours_centroid",
    "HG.C74_triangles"
   ],
   "note": "Shows that generated polygons are far from arbitrary; a triangle is generated in an example, another one is shown never to be."
  },
  {
   "property": "C75",
   "status": "proved",
   "theorems": [
    "HG.C75_polygons",
    "HG.C75_multipolygons",
    "HG.C75_mixes",
    "HG.C75_concave_contours",
    "HG.C75_concave_contours_centroid",
    "HG.C75_integers"
   ],
   "note": "The number of spanned coordinates also exceeds the vertices: removed points still count. An example shows that a small triangle is never generated."
  }
 ]
}