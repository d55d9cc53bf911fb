"""Writes MANIFEST.json from the table below (run from /verif)."""
import json

T = {
 "C01": ("proved", ["HG.C01_points"], ""),
 "C02": ("proved", ["HG.C02_multipoints"], ""),
 "C03": ("proved", ["HG.C03_segments"], ""),
 "C04": ("proved", ["HG.C04_boxes"], ""),
 "C05": ("proved", ["HG.C05_rectangular", "HG.C05_rectangular_ccw"], ""),
 "C06": ("proved", ["HG.C06_triangular"], ""),
 "C10": ("proved", ["HG.C10_contour_sizes"], ""),
 "C15": ("partial", ["HG.C15_convex_contours", "HG.C15_star_contours_partial",
   "HG.C15_contours_centroid_partial", "HG.C15_concave_contours_centroid_partial", "HG.C15_contours_partial", "HG.C15_concave_contours_partial",
   "HG.C15_multicontours_partial", "HG.C15_holes_partial", "HG.C15_contours_not_simple",
   "HG.C15_concave_contours_not_simple", "HG.C15_multicontours_not_simple", "HG.C15_star_contours_clockwise"],
   "proved for convex contours, for star contours (simple, but not counterclockwise) with correctly computed centroids, and for contours, "
   "concave contours, multicontours and holes when drawn "
   "points are on one line only if they share a coordinate; false of the code otherwise: "
   "concrete draws give self-crossing contours and a clockwise star triangle"),
 "C17": ("proved", ["HG.C17_multisegment_sizes", "HG.C17_multisegments"], "endpoints assume that the dependency computes convex hulls (contract met by HG.sample_hullOk)"),
 "C18": ("partial", ["HG.C18_multisegments_partial", "HG.C18_multisegments_generic_partial", "HG.C18_multisegments_centroid_partial", "HG.C18_multisegments_cross"],
   "false of the code when the multisegment consists of edges of a self-crossing contour (concrete draw); proved "
   "otherwise, and when drawn points are on one line only if they share a coordinate (then only star contours without area, "
   "for which no centroid exists, remain)"),
 "C45": ("partial", ["HG.C45_set_order", "HG.C45_edge_order_partial",
   "HG.C45_edges_contours_partial", "HG.C45_edges_polygons_partial"],
   "sets of points: equality of the constructors' results for all orders; sets of edges: equality of the constructors' results for all "
   "orders when drawn points are on one line only if they share a coordinate; otherwise queues are equal if no two edges have the same endpoints"),
 "C19": ("proved", ["HG.C19_multicontour_sizes"], ""),
 "C21": ("proved", ["HG.C21_polygon_sizes"], ""),
 "C25": ("proved", ["HG.C25_multipolygon_sizes"], ""),
 "C27": ("proved", ["HG.C27_mix_sizes"], ""),
 "C28": ("proved", ["HG.C28_mix_components"], ""),
 "C31": ("proved", ["HG.C31_single", "HG.C31_none", "HG.C31_multicontours", "HG.C31_polygons",
   "HG.C31_multipolygons", "HG.C31_multipolygons_nonneg", "HG.C31_mixes"],
   "the exception of the constructors is never another one, except for multipolygons with a negative min_holes_size and no "
   "max_holes_size (AssertionError, C32_multipolygons_negative)"),
 "C32": ("partial", ["HG.C32_single", "HG.C32_multicontours", "HG.C32_polygons",
   "HG.C32_multipolygons_partial", "HG.C32_mixes", "HG.C32_multipolygons_negative"],
   "proved for every constructor; for multipolygons with a negative min_holes_size and no "
   "max_holes_size the claim is false of the code (C32_multipolygons_negative)"),
 "C33": ("proved", ["HG.C33_prior_prime", "HG.C33_next_prime", "HG.C33_small", "HG.C33_three"], ""),
 "C34": ("proved", ["HG.C34_general_position", "HG.C34_no_failure"], ""),
 "C11": ("proved", ["HG.C11_contours", "HG.C11_contours_branch", "HG.C11_multicontours",
   "HG.C11_polygons", "HG.C11_multipolygons"],
   "polygons: a Python set enumerates its elements in some order"),
 "C40": ("proved", ["HG.C40_edge_algebra"], ""),
 "C41": ("proved", ["HG.C41_boundary"], ""),
 "C42": ("proved", ["HG.C42_round", "HG.C42_single"], ""),
 "C12": ("proved", ["HG.C12_concave", "HG.C12_not_convex", "HG.C12_left_and_right"], "a left and a right turn: if no three different points of given coordinates are collinear unless their line is horizontal or vertical"),
 "C13": ("proved", ["HG.C13_compress"], ""),
 "C14": ("partial", ["HG.C14_star", "HG.C47_polygon_border", "HG.C47_multipolygon_borders", "HG.C15_contours_partial",
   "HG.C15_concave_contours_partial", "HG.C15_multicontours_partial", "HG.C15_holes_partial"],
   "star contours and borders without conditions; the others when drawn points are on one line only if they share a coordinate"),
 "C16": ("proved", ["HG.C16_star", "HG.C16_centroid_inside", "HG.C16_star_shaped"], ""),
 "C23": ("proved", ["HG.C23_reverse", "HG.C23_orientation", "HG.C23_holes"], ""),
 "C39": ("proved", ["HG.C39_default_y"], ""),
 "C44": ("proved", ["HG.C44_sub_sequence", "HG.C44_nodup"], ""),
 "C46": ("proved", ["HG.C46_star_one_direction", "HG.C46_concave_not_star"], ""),
 "C43": ("proved", ["HG.C43_max_hull", "HG.C43_no_right_turn", "HG.C43_max_hull_nodup"], "for at least two different points"),
 "C07": ("proved", ["HG.C07_convex"], "assumes that the dependency computes convex hulls (contract met by HG.sample_hullOk)"),
 "C08": ("proved", ["HG.C08_range"], "any arithmetic; assumes that the convex hull of the dependency consists of given points"),
 "C09": ("proved", ["HG.C09_no_clamping", "HG.C09_extent"], "the extent assumes that atan2 respects quadrants (met by HG.sample_quadrantOk)"),
 "C20": ("proved", ["HG.C20_multicontours"], ""),
 "C22": ("partial", ["HG.C22_holes", "HG.C22_check_partial", "HG.C22_polygons_assertion"],
   "separation of the holes is proved; the claim on the internal check is false of the code (a concrete draw raises "
   "AssertionError) and proved when drawn points are on one line only if they share a coordinate"),
 "C26": ("proved", ["HG.C26_multipolygons"], ""),
 "C29": ("proved", ["HG.C29_discrete"], "assumes that the dependency computes convex hulls (contract met by HG.sample_hullOk)"),
 "C30": ("proved", ["HG.C30_pieces", "HG.C30_segments", "HG.C30_segments_generic"], "assumes that the dependency computes convex hulls (contract met by HG.sample_hullOk); segments of one piece: C30_segments assumes it of `multisegments`, C30_segments_generic uses C18 for coordinates without slanted collinear triples and true centroids, except if some star contour has the area zero (the dependency divides by zero there, the model has a total function)"),
 "C36": ("proved", ["HG.C36_contours", "HG.C36_multisegments", "HG.C36_multicontours", "HG.C36_polygons"], "an exception of a draw can only come from the geometric construction itself, which then got enough points; assumes that the dependency computes convex hulls for polygons"),
 "C37": ("proved", ["HG.C37_multipolygons"], "an exception of a draw can only come from the geometric construction itself; min_holes_size must not be negative (see C32)"),
 "C38": ("proved", ["HG.C38_mixes"], "an exception of a draw can only come from the geometric construction itself; x and y must have the same number of values"),
 "C35": ("proved", ["HG.C35_distinct"], ""),
 "C24": ("proved", ["HG.C24_holes_inside", "HG.C24_multipolygon_holes"],
   "assumes that coin_change returns summands, that a set enumerates its elements, and that the nearest segment meets the query if some segment does"),
 "C47": ("proved", ["HG.C47_polygon_border", "HG.C47_multipolygon_borders"],
   "assumes that coin_change returns summands"),
 "C48": ("proved", ["HG.C48_points", "HG.C48_boxes", "HG.C48_convex_contours", "HG.C48_star_contours", "HG.C48_multipoints",
   "HG.C48_contours", "HG.C48_concave_contours", "HG.C48_multisegments", "HG.C48_multicontours", "HG.C48_polygons",
   "HG.C48_multipolygons", "HG.C48_mixes"],
   "assumes the contracts of coin_change, set enumeration, the convex hull and the intersection check; .outOfFuel is the model's name for a loop that does not end (excluded by C50)"),
 "C49": ("proved", ["HG.C49_polygons_without_holes"], "assumes the contracts of coin_change and the convex hull"),
 "C50": ("proved", ["HG.C50_contours", "HG.C50_polygons", "HG.C50_multipolygons", "HG.C50_mixes"],
   "assumes the contracts of coin_change, set enumeration, the convex hull and the intersection check"),
 "C51": ("proved", ["HG.C51_contours", "HG.C51_multisegments", "HG.C51_mixes"],
   "any arithmetic; assumes that the convex hull of the dependency consists of given points and that a set enumerates its elements; the other constructors: C01-C05, C08, C11"),
 "C52": ("proved", ["HG.C52_multicontours", "HG.C52_holes", "HG.C52_multipolygons", "HG.C52_mixes"],
   "any arithmetic; same assumptions as C51"),
 "C53": ("proved", ["HG.C53_triangles", "HG.C53_rectangles", "HG.C53_contours", "HG.C53_multisegments"],
         "multisegments: for a sweep that is exact on crossings and overlaps"),
 "C54": ("proved", ["HG.C54_simple", "HG.C54_multipoints", "HG.C54_contours", "HG.C54_multisegments",
                    "HG.C54_multicontours", "HG.C54_polygons", "HG.C54_multipolygons", "HG.C54_mixes",
                    "HG.C54_concave_contours"],
         "for the classes of bounds in the statement"),
 "C55": ("proved", ["HG.C55_simple", "HG.C55_multipoints", "HG.C55_contours", "HG.C55_multisegments",
                    "HG.C55_multicontours", "HG.C55_polygons", "HG.C55_multipolygons", "HG.C55_mixes"],
         "any arithmetic"),
 "C56": ("proved", ["HG.C56_sizes", "HG.C56_lower_bound"], "C56_lower_bound is the concrete case of hexagons"),
 "C57": ("proved", ["HG.C57_multipolygons", "HG.C57_mixes", "HG.C57_mix_polygons", "HG.C57_multipolygon_polygons"],
   "the first two for any arithmetic"),
 "C58": ("proved", ["HG.C58_points", "HG.C58_multipoints", "HG.C58_segments", "HG.C58_boxes", "HG.C58_triangular_contours", "HG.C58_rectangular_contours", "HG.C58_contours", "HG.C58_convex_contours", "HG.C58_star_contours", "HG.C58_concave_contours", "HG.C58_multisegments", "HG.C58_multicontours", "HG.C58_polygons", "HG.C58_multipolygons", "HG.C58_mixes"],
   "exact arithmetic; hypotheses on third-party functions in Spec.SameTools"),
 "C59": ("proved", ["HG.C59_multipoints", "HG.C59_contours", "HG.C59_multisegments", "HG.C59_multicontours", "HG.C59_polygons", "HG.C59_multipolygons", "HG.C59_mixes"],
   "Inclusion of strategies in the lower bounds, for any arithmetic; the room for a prime is necessary by C56_lower_bound."),
 "C60": ("proved", ["HG.C60_axis_edge"],
   "Exact arithmetic; the hull and the angle function are dependencies described by HullOk and SectorOk. Triangles are a genuine exception (example beside the theorem)."),
 "C61": ("proved", ["HG.C61_mix_counts", "HG.C61_multisegment_counts", "HG.C61_multicontour_counts", "HG.C61_multipolygon_counts"],
   "Exact arithmetic; minimal border sizes at most 3, maximal border sizes at least 5, no minimal number of holes; coordinates in generic position as in C54."),
 "C62": ("proved", ["HG.C62_polygons", "HG.C62_multipolygons", "HG.C62_mixes"],
   "Exact arithmetic; coordinates in generic position as in C54; lower bounds on border and hole sizes at most 3; p is any prime with 6k+3 <= p."),
 "C63": ("proved", ["HG.C63_mixes", "HG.C63_multipolygons"],
   "Any arithmetic. In mixes neighbouring parts which are both segments or polygons are excluded since they may share a coordinate there."),
 "C64": ("proved", ["HG.C64_concave_contours", "HG.C64_polygons", "HG.C64_multicontours", "HG.C64_multipolygons", "HG.C64_mixes"],
   "Exact arithmetic, enough steps for the loops (explicit bound). Removes the hypothesis on generic coordinates from C54 (concave contours), C61 (multicontours) and C62, at the price of more coordinates."),
 "C65": ("proved", ["HG.C65_convex_contours", "HG.C65_contours", "HG.C65_contours_exactly"],
   "Exact arithmetic; the convex hull and atan2 of the context enter through their specifications (atan2 is increasing in the slope on the right half-plane)."),
 "C66": ("proved", ["HG.C66_star_convex", "HG.C66_star_convex_centroid"],
   "Exact arithmetic; strengthens C46 from the turns at single vertices to the whole polygon."),
 "C67": ("proved", ["HG.C67_one_axis"],
   "Exact arithmetic; sharpens C60, which says that there is such an edge."),
 "C68": ("proved", ["HG.C68_contours", "HG.C68_contours_branch", "HG.C68_multicontours", "HG.C68_polygons", "HG.C68_multipolygons", "HG.C68_mixes"],
   "Any arithmetic.  Convex contours are the subject of C67."),
 "C69": ("proved", ["HG.C69_bounding_box", "HG.C69_span", "HG.C69_integers"],
   "Exact arithmetic."),
 "C70": ("proved", ["HG.C70_contours", "HG.C70_multicontours", "HG.C70_polygons", "HG.C70_multipolygons", "HG.C70_mixes", "HG.C70_convex_contours", "HG.C70_all_contours"],
   "The converse direction of C36 and C64."),
 "C71": ("proved", ["HG.C71_multicontours", "HG.C71_multipolygons"],
   "The converse direction of C36, C37 and C61."),
 "C72": ("proved", ["HG.C72_multicontours", "HG.C72_holes", "HG.C72_multipolygon_holes", "HG.C72_mix_holes"],
   "Strengthens C20 and C22 from pairs to all contours; an example shows that rings of pairwise touching triangles exist."),
 "C73": ("proved", ["HG.C73_polygons", "HG.C73_multipolygons", "HG.C73_mixes", "HG.C73_concave_contours", "HG.C73_concave_contours_centroid", "HG.C73_multicontours"],
   "A limit of the generated shapes that the documentation does not mention; an example shows a triangle that is never generated."),
 "C74": ("proved", ["HG.C74_polygons", "HG.C74_multipolygons", "HG.C74_mixes", "HG.C74_concave_contours", "HG.C74_concave_contours_centroid", "HG.C74_triangles"],
   "Shows that generated polygons are far from arbitrary; a triangle is generated in an example, another one is shown never to be."),
 "C75": ("proved", ["HG.C75_polygons", "HG.C75_multipolygons", "HG.C75_mixes", "HG.C75_concave_contours", "HG.C75_concave_contours_centroid", "HG.C75_integers"],
   "The number of spanned coordinates also exceeds the vertices: removed points still count. An example shows that a small triangle is never generated."),
}
json.dump({"claims": [{"property": k, "status": s, "theorems": t, "note": n}
                      for k, (s, t, n) in sorted(T.items())]},
          open("MANIFEST.json", "w"), indent=1)
mods = [l.split()[1] for l in open("lean/Verif.lean") if l.startswith("import") and "Axioms" not in l]
open("lean/Verif/Axioms.lean", "w").write(
    "".join("import %s\n" % m for m in mods)
    + "\n/-!\n# The axioms of every theorem of `MANIFEST.json` (written by `tools/manifest.py`)\n-/\n\n"
    + "".join("#print axioms %s\n" % t for k in sorted(T) for t in T[k][1]))
