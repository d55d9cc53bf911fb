{"id": "C01", "title": "Points carry drawn coordinates and nothing is lost", "statement": "`points(x, y)` generates exactly the points whose abscissa is a value of `x` and whose ordinate is a value of `y` (of `x` when `y` is omitted).", "quantifier": "all coordinate strategies (any set of values, finite or infinite), all pairs of values", "why_tests_cant": "a test samples finitely many draws of finitely many strategies; 'exactly' needs both inclusions for every strategy", "anchors": ["hypothesis_geometry/planar.py:points", "hypothesis_geometry/_core/base.py:to_point_strategy"]}
{"id": "C02", "title": "Multipoints: distinct points, requested size", "statement": "`multipoints(x, y, min_size, max_size)` generates exactly the sequences of pairwise distinct points with drawn coordinates whose length n satisfies max(min_size, 1) <= n and n <= max_size (when given).", "quantifier": "all coordinate strategies, all accepted size bounds, all lengths", "why_tests_cant": "unbounded sizes and arbitrary strategies", "anchors": ["hypothesis_geometry/planar.py:multipoints", "hypothesis_geometry/_core/base.py:to_multipoint_strategy", "hypothesis_geometry/_core/base.py:to_unique_point_sequence_strategy"]}
{"id": "C03", "title": "Segments are exactly the non-degenerate ones", "statement": "`segments(x, y)` generates exactly the segments with drawn coordinates and distinct endpoints.", "quantifier": "all coordinate strategies, all pairs of endpoints", "why_tests_cant": "both inclusions over all strategies", "anchors": ["hypothesis_geometry/planar.py:segments", "hypothesis_geometry/_core/base.py:to_segment_strategy"]}
{"id": "C04", "title": "Boxes are exactly the proper ones", "statement": "`boxes(x, y)` generates exactly the boxes with min_x < max_x drawn from `x` and min_y < max_y drawn from `y`, whatever order the two values of an axis were drawn in.", "quantifier": "all coordinate strategies and draws", "why_tests_cant": "arbitrary strategies and draw orders", "anchors": ["hypothesis_geometry/planar.py:boxes", "hypothesis_geometry/_core/base.py:to_box_strategy", "hypothesis_geometry/_core/utils.py:sort_pair"]}
{"id": "C05", "title": "Rectangular contours are counterclockwise axis-parallel rectangles", "statement": "Every contour of `rectangular_contours(x, y)` has 4 vertices with drawn coordinates, axis-parallel sides, every turn strictly counterclockwise, and every proper drawn rectangle is generated.", "quantifier": "all coordinate strategies and draws", "why_tests_cant": "arbitrary coordinates", "anchors": ["hypothesis_geometry/planar.py:rectangular_contours", "hypothesis_geometry/_core/base.py:to_rectangular_vertex_sequence_strategy"]}
{"id": "C06", "title": "Triangular contours are counterclockwise and non-degenerate", "statement": "Every contour of `triangular_contours(x, y)` has exactly 3 vertices with drawn coordinates in strictly counterclockwise order, and every such triangle is generated.", "quantifier": "all coordinate strategies and draws", "why_tests_cant": "arbitrary coordinates", "anchors": ["hypothesis_geometry/planar.py:triangular_contours", "hypothesis_geometry/_core/base.py:to_triangular_vertex_sequence_strategy", "hypothesis_geometry/_core/contracts.py:are_vertices_strict"]}
{"id": "C07", "title": "Convex contours are strictly convex and counterclockwise", "statement": "Every contour of `convex_contours` turns strictly counterclockwise: any three of its vertices taken in order are in strictly counterclockwise order.", "quantifier": "all coordinate strategies, size bounds, draws and random bits", "why_tests_cant": "arbitrary sizes, shuffles and coordinates", "anchors": ["hypothesis_geometry/planar.py:convex_contours", "hypothesis_geometry/_core/base.py:to_convex_vertex_sequence_strategy", "hypothesis_geometry/_core/factories.py:to_convex_vertex_sequence"]}
{"id": "C08", "title": "Convex contours stay in the drawn range", "statement": "Every vertex of a contour of `convex_contours` lies in the bounding box of drawn coordinates: its abscissa (ordinate) is between two values of `x` (of `y`).", "quantifier": "all coordinate strategies, random bits, shuffles and even wrong angular orders", "why_tests_cant": "arbitrary shuffles, bits and sizes", "anchors": ["hypothesis_geometry/_core/factories.py:to_convex_vertex_sequence"]}
{"id": "C09", "title": "Convex construction: clamping is never needed with exact arithmetic", "statement": "In the convex contour construction the polygon obtained by chaining the angle-sorted vectors is closed and, after the shift, exactly fits between the extreme drawn coordinates on each axis, so that the final clamping changes no vertex.", "quantifier": "all coordinate lists, all random bits and shuffles, exact arithmetic", "why_tests_cant": "all lists of all lengths and all permutations", "anchors": ["hypothesis_geometry/_core/factories.py:to_convex_vertex_sequence"]}
{"id": "C10", "title": "Sizes of contours are as requested", "statement": "Every contour of `contours`, `convex_contours`, `concave_contours` and `star_contours` has at least max(min_size, minimum of the kind) and at most max_size vertices.", "quantifier": "all coordinate strategies, all accepted bounds", "why_tests_cant": "unbounded sizes, every branch of the union", "anchors": ["hypothesis_geometry/planar.py:contours", "hypothesis_geometry/planar.py:convex_contours", "hypothesis_geometry/planar.py:concave_contours", "hypothesis_geometry/planar.py:star_contours", "hypothesis_geometry/_core/base.py:_to_vertex_sequences"]}
{"id": "C11", "title": "Contour vertices are drawn points", "statement": "Every vertex of a contour of `concave_contours`, `star_contours`, `multicontours`, of a hole or border of `polygons` or `multipolygons`, and of a non-convex branch of `contours` has its abscissa among the values of `x` and its ordinate among the values of `y`.", "quantifier": "all coordinate strategies, sizes, choices", "why_tests_cant": "the triangulation based construction must not invent coordinates for any input", "anchors": ["hypothesis_geometry/_core/factories.py:to_vertex_sequence", "hypothesis_geometry/_core/factories.py:to_polygon", "hypothesis_geometry/_core/factories.py:to_multicontour", "hypothesis_geometry/_core/factories.py:to_star_contour_vertices", "hypothesis_geometry/_core/triangular.py:Triangulation"]}
{"id": "C12", "title": "Concave contours are not convex", "statement": "Every contour of `concave_contours` has two vertices where the boundary turns in different directions, so it is not strictly convex in either direction; if no three different points of given coordinates are collinear unless their line is horizontal or vertical, the boundary turns left at one vertex and right at another one.", "quantifier": "all coordinate strategies, sizes", "why_tests_cant": "every generated contour", "anchors": ["hypothesis_geometry/planar.py:concave_contours", "hypothesis_geometry/_core/contracts.py:are_vertices_non_convex"]}
{"id": "C13", "title": "Removing redundant vertices makes a contour strict", "statement": "The vertex-compression step keeps a subsequence of the vertices and, for pairwise distinct vertices, leaves either at most two vertices or no vertex collinear with its two neighbours (cyclically); it leaves a strict contour unchanged.", "quantifier": "all vertex lists of any length", "why_tests_cant": "all lengths and all collinearity patterns, including across the end of the list", "anchors": ["hypothesis_geometry/_core/factories.py:compress_contour"]}
{"id": "C14", "title": "Generated contours are strict", "statement": "No contour of `contours`, `concave_contours`, `star_contours`, `multicontours`, no hole and no border has three consecutive collinear vertices.", "quantifier": "all coordinate strategies, sizes, choices", "why_tests_cant": "every point configuration including highly collinear ones", "anchors": ["hypothesis_geometry/_core/factories.py:_to_vertex_sequence", "hypothesis_geometry/_core/factories.py:_triangulation_to_border_vertices", "hypothesis_geometry/_core/factories.py:compress_contour"]}
{"id": "C15", "title": "Generated contours are simple and counterclockwise", "statement": "Contours of `contours`, `concave_contours`, `star_contours`, `multicontours` do not intersect themselves and are counterclockwise.", "quantifier": "all coordinate strategies, sizes, choices", "why_tests_cant": "every point configuration", "anchors": ["hypothesis_geometry/_core/factories.py:_to_vertex_sequence", "hypothesis_geometry/_core/triangular.py:Triangulation.delaunay"]}
{"id": "C16", "title": "Star contours: every vertex is visible from the centroid", "statement": "For a contour of `star_contours` the centroid of its region lies in the angle at every vertex, and the final round of the construction removed nothing. If the centroid is computed correctly, it is strictly on the inner side of every edge, and all of the boundary is visible from it: a point of a triangle spanned by the centroid and an edge is on no edge unless it is on the one that spans the triangle.", "quantifier": "all coordinate strategies, sizes", "why_tests_cant": "unbounded number of rounds and sizes", "anchors": ["hypothesis_geometry/_core/factories.py:to_star_contour_vertices", "hypothesis_geometry/_core/contracts.py:angle_contains_point"]}
{"id": "C17", "title": "Multisegments have the requested size", "statement": "Every multisegment of `multisegments` has between max(min_size, 2) and max_size segments, each with distinct endpoints and (outside the convex branch) drawn coordinates.", "quantifier": "all coordinate strategies, bounds, branches", "why_tests_cant": "every branch of the union and all sizes", "anchors": ["hypothesis_geometry/planar.py:multisegments", "hypothesis_geometry/_core/base.py:to_non_crossing_non_overlapping_segment_sequence_strategy", "hypothesis_geometry/_core/utils.py:cut"]}
{"id": "C18", "title": "Multisegments do not cross or overlap", "statement": "Any two different segments of a multisegment of `multisegments` have at most one common point, and that point is an endpoint of one of them.", "quantifier": "all coordinate strategies, bounds, branches", "why_tests_cant": "every configuration of every size", "anchors": ["hypothesis_geometry/_core/base.py:to_non_crossing_non_overlapping_segment_sequence_strategy", "hypothesis_geometry/_core/contracts.py:are_segments_non_crossing_non_overlapping"]}
{"id": "C19", "title": "Multicontours have the requested sizes", "statement": "Every multicontour has between max(min_size, 2) and max_size contours, each with between max(min_contour_size, 3) and max_contour_size vertices.", "quantifier": "all coordinate strategies and bounds", "why_tests_cant": "unbounded sizes", "anchors": ["hypothesis_geometry/planar.py:multicontours", "hypothesis_geometry/_core/base.py:to_multicontour_strategy", "hypothesis_geometry/_core/contracts.py:multicontour_has_valid_sizes"]}
{"id": "C20", "title": "Contours of a multicontour touch at most at one point", "statement": "Two different contours of a multicontour have convex hulls with at most one common point, which is then a vertex of both; in particular no edges cross or overlap and no contour is inside another.", "quantifier": "all point sets, all size lists, all sequences of sorting-axis choices", "why_tests_cant": "every interleaving of horizontal/vertical choices and any number of contours", "anchors": ["hypothesis_geometry/_core/factories.py:to_multicontour", "hypothesis_geometry/_core/contracts.py:has_vertical_leftmost_segment", "hypothesis_geometry/_core/contracts.py:has_horizontal_lowermost_segment"]}
{"id": "C21", "title": "Polygons have the requested sizes", "statement": "Every polygon of `polygons` has a border with between max(min_size, 3) and max_size vertices, between max(min_holes_size, 0) and max_holes_size holes, each with between max(min_hole_size, 3) and max_hole_size vertices.", "quantifier": "all coordinate strategies and bounds", "why_tests_cant": "unbounded sizes", "anchors": ["hypothesis_geometry/planar.py:polygons", "hypothesis_geometry/_core/base.py:to_polygon_strategy"]}
{"id": "C22", "title": "Holes of a polygon do not cross or overlap", "statement": "Two different holes of a generated polygon have convex hulls with at most one common point; hence the internal check of the polygon construction never fails.", "quantifier": "all point sets, hole sizes and choices", "why_tests_cant": "every interleaving of choices and any number of holes", "anchors": ["hypothesis_geometry/_core/factories.py:to_polygon", "hypothesis_geometry/_core/utils.py:contours_do_not_cross_or_overlap"]}
{"id": "C23", "title": "Holes are clockwise when the border construction is counterclockwise", "statement": "A hole is the vertex sequence of a contour traversed in the opposite direction, starting from the same vertex: same vertices, same edges reversed, every turn has the opposite orientation.", "quantifier": "all vertex sequences", "why_tests_cant": "all lengths", "anchors": ["hypothesis_geometry/_core/factories.py:_reverse_vertices", "hypothesis_geometry/_core/factories.py:to_polygon"]}
{"id": "C24", "title": "Border and holes of a polygon do not cross", "statement": "No edge of the border of a generated polygon crosses or overlaps an edge of a hole and every hole lies inside the border.", "quantifier": "all point sets, border sizes, hole sizes and choices", "why_tests_cant": "every point configuration", "anchors": ["hypothesis_geometry/_core/factories.py:to_polygon"]}
{"id": "C25", "title": "Multipolygons have the requested sizes", "statement": "Every multipolygon has between max(min_size, 2) and max_size polygons, each with border, hole count and hole sizes in the requested ranges.", "quantifier": "all coordinate strategies and bounds", "why_tests_cant": "unbounded sizes, three branches", "anchors": ["hypothesis_geometry/planar.py:multipolygons", "hypothesis_geometry/_core/base.py:to_multipolygon_strategy"]}
{"id": "C26", "title": "Polygons of a multipolygon have disjoint interiors", "statement": "The borders of two different polygons of a multipolygon do not cross or overlap: common points lie on a common vertical (horizontal) line, bounded on one side by each polygon, and are vertices of the earlier polygon.", "quantifier": "all coordinate lists, draws and branches", "why_tests_cant": "every draw sequence and any number of polygons", "anchors": ["hypothesis_geometry/_core/base.py:to_multipolygon_strategy", "hypothesis_geometry/_core/contracts.py:has_vertical_leftmost_segment"]}
{"id": "C27", "title": "Mixes have the requested sizes", "statement": "Every mix has numbers of points, segments and polygons within the requested ranges, and polygons with border, hole count and hole sizes within the requested ranges.", "quantifier": "all coordinate strategies and bounds", "why_tests_cant": "all partitions and draw orders", "anchors": ["hypothesis_geometry/planar.py:mixes", "hypothesis_geometry/_core/base.py:to_mix_strategy"]}
{"id": "C28", "title": "Mixes have at least two non-empty components", "statement": "Every mix of `mixes` has at least two of its three components non-empty, and single segments/polygons are unpacked while several are packed in a multisegment/multipolygon.", "quantifier": "all accepted arguments and draws", "why_tests_cant": "every combination of bounds", "anchors": ["hypothesis_geometry/planar.py:mixes", "hypothesis_geometry/_core/base.py:to_mix_strategy"]}
{"id": "C29", "title": "The discrete component of a mix is disjoint from the others", "statement": "No point of the discrete component of a mix lies on a segment or in a polygon of the mix, and its points are pairwise distinct.", "quantifier": "all draws, partitions and permutations of the pieces", "why_tests_cant": "every permutation of any number of pieces", "anchors": ["hypothesis_geometry/_core/base.py:to_mix_strategy"]}
{"id": "C30", "title": "Linear and shaped components of a mix do not cross or overlap", "statement": "Segments and polygon edges that come from different pieces of a mix do not cross or overlap, where the segments of one piece are a value of `segments` or of `multisegments` for the same coordinates. No two segments of a mix cross or overlap if this holds for `multisegments` of the same coordinates; if no three different points of given coordinates are collinear unless their line is horizontal or vertical, this holds unless some star contour encloses the area zero.", "quantifier": "all draws, partitions and permutations of the pieces", "why_tests_cant": "every permutation of any number of pieces", "anchors": ["hypothesis_geometry/_core/base.py:to_mix_strategy", "hypothesis_geometry/_core/contracts.py:has_vertical_leftmost_segment"]}
{"id": "C31", "title": "Inconsistent sizes are rejected with ValueError, and only those", "statement": "A strategy constructor raises ValueError exactly when some upper bound is below the minimum of its kind, or a lower bound exceeds its upper bound, or a lower bound with an upper bound is negative (for `mixes` also when fewer than two components may be non-empty).", "quantifier": "all integer bounds for every constructor", "why_tests_cant": "infinitely many bounds, 14 constructors", "anchors": ["hypothesis_geometry/planar.py:_validate_sizes", "hypothesis_geometry/planar.py:mixes", "hypothesis_geometry/planar.py:polygons", "hypothesis_geometry/planar.py:multipolygons", "hypothesis_geometry/planar.py:multicontours"]}
{"id": "C32", "title": "A too small lower bound only warns and acts as the minimum", "statement": "When the lower bound is below the minimum of the kind a HypothesisWarning is issued and the resulting strategy is the one obtained with the minimum.", "quantifier": "all integer bounds for every constructor", "why_tests_cant": "infinitely many bounds; fails for one argument of one constructor", "anchors": ["hypothesis_geometry/planar.py:_validate_sizes", "hypothesis_geometry/planar.py:multipolygons"]}
{"id": "C33", "title": "Grid size helpers return primes", "statement": "For every value >= 5 the grid size used for points in general position is the greatest prime not exceeding it, and for every value >= 3 the lower bound used is the least prime >= max(value, 5); the searches terminate.", "quantifier": "all integers", "why_tests_cant": "primality of all integers, termination needs infinitude of primes", "anchors": ["hypothesis_geometry/_core/utils.py:to_prior_prime", "hypothesis_geometry/_core/utils.py:to_next_prime", "hypothesis_geometry/_core/utils.py:_is_prime"]}
{"id": "C34", "title": "Point sets are in general position on the index grid", "statement": "For a grid of any prime size used and any allowed scale, no row, column or diagonal of the index grid contains more than two of the generated points, no three points are collinear on the index grid, and the internal sparsity assertion never fails.", "quantifier": "all primes >= 5, all scales not divisible by it", "why_tests_cant": "infinitely many primes and scales", "anchors": ["hypothesis_geometry/_core/base.py:to_point_sequence_in_general_position_strategy"]}
{"id": "C35", "title": "Point sequences in general position are distinct and numerous enough", "statement": "The point sequence drawn for a contour of at least min_size vertices consists of pairwise distinct points, a prime number of them, at least min_size, all with drawn coordinates.", "quantifier": "all coordinate strategies and bounds", "why_tests_cant": "unbounded sizes", "anchors": ["hypothesis_geometry/_core/base.py:to_point_sequence_in_general_position_strategy"]}
{"id": "C36", "title": "Drawing never fails for lack of room (contours, multicontours, polygons)", "statement": "Given that `x` and `y` have enough distinct values, no draw of `multicontours` or `polygons` reaches an empty integer range, an empty or too short collection of sizes: the numbers of points reserved for contours or holes always suffice.", "quantifier": "all accepted bounds, all draws", "why_tests_cant": "arithmetic over all bounds and draw histories", "anchors": ["hypothesis_geometry/_core/base.py:to_multicontour_strategy", "hypothesis_geometry/_core/base.py:to_polygon_strategy"]}
{"id": "C37", "title": "Drawing a multipolygon never runs out of coordinates", "statement": "Whatever polygons were drawn before, the coordinates left for the remaining polygons of a multipolygon suffice: every integer range is non-empty and every polygon gets at least as many coordinates as its grid needs.", "quantifier": "all bounds, all draw histories, any number of polygons", "why_tests_cant": "invariant over draw histories", "anchors": ["hypothesis_geometry/_core/base.py:to_multipolygon_strategy"]}
{"id": "C38", "title": "Drawing a mix never runs out of coordinates", "statement": "Whatever was drawn before, every piece of a mix gets enough coordinates and every integer range is non-empty; segment pieces rely on a prime between n and 2n.", "quantifier": "all bounds, all draw histories, any number of pieces", "why_tests_cant": "needs Bertrand's postulate; invariant over draw histories", "anchors": ["hypothesis_geometry/_core/base.py:to_mix_strategy"]}
{"id": "C39", "title": "Omitting the y strategy means reusing the x strategy", "statement": "For every constructor the strategy obtained without `y_coordinates` generates the same values as the one obtained by passing the x strategy twice.", "quantifier": "all constructors, all strategies and bounds", "why_tests_cant": "every strategy", "anchors": ["hypothesis_geometry/_core/base.py:to_point_strategy", "hypothesis_geometry/_core/base.py:to_box_strategy", "hypothesis_geometry/_core/base.py:to_mix_strategy", "hypothesis_geometry/_core/base.py:to_multipolygon_strategy"]}
{"id": "C40", "title": "Quad-edge operations keep the edge algebra consistent", "statement": "After any history of creating, connecting, splicing, flipping and deleting edges: 'left from start' and 'right from start' are inverse, 'left from end' and its mirror are inverse, orbits are finite cycles, and a spliced pair spliced again is restored.", "quantifier": "all histories of operations", "why_tests_cant": "unbounded operation histories on a pointer structure", "anchors": ["hypothesis_geometry/_core/subdivisional.py:QuadEdge.splice", "hypothesis_geometry/_core/subdivisional.py:QuadEdge.connect", "hypothesis_geometry/_core/subdivisional.py:QuadEdge.delete", "hypothesis_geometry/_core/subdivisional.py:QuadEdge.flip"]}
{"id": "C41", "title": "Boundary traversal terminates", "statement": "Walking the boundary of a triangulation always comes back to its first edge after finitely many steps and visits no edge twice.", "quantifier": "all reachable triangulations", "why_tests_cant": "a loop over a mutable pointer structure", "anchors": ["hypothesis_geometry/_core/triangular.py:_to_boundary_edges"]}
{"id": "C42", "title": "Delaunay construction merges all parts", "statement": "The divide-and-conquer construction ends with exactly one triangulation: the number of merge rounds suffices for any number of initial parts, and parts are merged with their right neighbours in lexicographic order.", "quantifier": "all numbers of points", "why_tests_cant": "all sizes", "anchors": ["hypothesis_geometry/_core/triangular.py:Triangulation.delaunay", "hypothesis_geometry/_core/utils.py:ceil_log2"]}
{"id": "C43", "title": "The maximal convex hull counts boundary points", "statement": "The hull used for counting inner points consists of input points, is convex (no clockwise turn) and has all input points on its left.", "quantifier": "all point lists", "why_tests_cant": "all sizes and degenerate configurations", "anchors": ["hypothesis_geometry/_core/factories.py:to_max_convex_hull", "hypothesis_geometry/_core/factories.py:_to_sub_hull"]}
{"id": "C44", "title": "Sub-sequences keep elements and respect the minimal size", "statement": "The random sub-sequence of segments is a duplicate-free selection of the given segments with at least min_size of them.", "quantifier": "all sequences and draws", "why_tests_cant": "all permutations", "anchors": ["hypothesis_geometry/_core/base.py:to_sub_sequence_strategy", "hypothesis_geometry/_core/utils.py:cut"]}
{"id": "C45", "title": "Set iteration order is irrelevant", "statement": "The order in which Python enumerates its hash sets of points and edges has no influence on the generated polygon or contour.", "quantifier": "all enumeration orders", "why_tests_cant": "hash orders vary between runs and are not under test control", "anchors": ["hypothesis_geometry/_core/factories.py:to_polygon", "hypothesis_geometry/_core/factories.py:_to_vertex_sequence", "hypothesis_geometry/_core/factories.py:_to_mouths_increments"]}
{"id": "C46", "title": "Star contours have no reflex vertex", "statement": "If the centroid of the region of a contour of `star_contours` lies on no line through two consecutive vertices, the contour turns in the same direction at every vertex: `star_contours` produces no proper (non-convex) star shape then. If the centroid of the region of a contour of `concave_contours` is computed correctly, then the contour is not a value of `star_contours`, whatever the arguments.", "quantifier": "all coordinates, sizes and draws", "why_tests_cant": "a statement about the absence of a kind of output over all draws", "anchors": ["hypothesis_geometry/_core/factories.py:to_star_contour_vertices", "hypothesis_geometry/_core/contracts.py:angle_contains_point"]}
{"id": "C47", "title": "The border of a polygon is a simple counterclockwise contour", "statement": "The border of a polygon of `polygons` (and of every polygon of `multipolygons` that must have holes) has distinct vertices, no two of its edges cross, overlap or touch except neighbours at their common vertex, no three consecutive vertices are collinear, and it goes around its interior counterclockwise.", "quantifier": "all coordinate strategies, sizes, point sets and choices", "why_tests_cant": "every point configuration, including those with many collinear or cocircular points", "anchors": ["hypothesis_geometry/_core/factories.py:to_polygon", "hypothesis_geometry/_core/triangular.py:Triangulation.delaunay"]}
{"id": "C48", "title": "Draws raise no exception", "statement": "If the coordinate strategies never fail, offer enough different values for the requested sizes (the bounds of C36-C38), and three drawn points are on a line only when they share an abscissa or an ordinate, then no draw of `contours`, `concave_contours`, `multisegments`, `multicontours`, `polygons`, `multipolygons` or `mixes` raises an exception: neither an assertion nor a lookup failure nor an exhausted iterator of the library can be reached. `points`, `segments`, `triangular_contours`, `boxes`, `rectangular_contours`, `multipoints`, `convex_contours` and `star_contours` raise no exception for any coordinates of sufficient number.", "quantifier": "all coordinate strategies, sizes, point sets, choices and enumeration orders of sets", "why_tests_cant": "a rare configuration of points is enough to reach a failing assertion or an exhausted generator; tests only see the sampled ones", "anchors": ["hypothesis_geometry/_core/factories.py:to_vertex_sequence", "hypothesis_geometry/_core/factories.py:to_polygon", "hypothesis_geometry/_core/factories.py:to_multicontour", "hypothesis_geometry/planar.py"]}
{"id": "C49", "title": "Polygons without holes raise no exception", "statement": "`polygons` with `max_holes_size=0` raises no exception in any draw, for arbitrary coordinates of sufficient number, with any number of collinear or cocircular points.", "quantifier": "all coordinate strategies, sizes, point sets and choices", "why_tests_cant": "degenerate configurations (many points on a line or on a circle) are unlikely to be sampled", "anchors": ["hypothesis_geometry/_core/factories.py:to_polygon", "hypothesis_geometry/_core/triangular.py:Triangulation.delaunay", "hypothesis_geometry/planar.py:polygons"]}
{"id": "C50", "title": "Every draw finishes", "statement": "Under the conditions of C48 every loop of the constructions behind `contours`, `polygons`, `multipolygons` and `mixes` ends after at most (n + 2)^2 rounds for n drawn points, so every draw finishes with a value or with one of the rejections of hypothesis.", "quantifier": "all coordinate strategies, sizes, point sets and choices", "why_tests_cant": "non-termination cannot be observed by a finite number of runs", "anchors": ["hypothesis_geometry/_core/factories.py:to_vertex_sequence", "hypothesis_geometry/_core/factories.py:to_polygon", "hypothesis_geometry/_core/triangular.py:Triangulation.delaunay"]}
{"id": "C51", "title": "Coordinates stay in the drawn range however operations round", "statement": "With any arithmetic (sums, differences, orientation and circle tests computed with arbitrary errors) every vertex of a contour of `contours` and every endpoint of a segment of `multisegments` has its coordinates between two drawn coordinates of its axis; in a mix of `mixes` the points and polygon vertices have drawn coordinates and segment endpoints are between drawn coordinates.", "quantifier": "all linearly ordered coordinate types, all functions + and -, all predicates, all coordinate strategies, sizes, arguments and draws", "why_tests_cant": "rounding errors leave the range only for rare combinations of coordinates, and tests fix one number type", "anchors": ["hypothesis_geometry/_core/factories.py:to_convex_vertex_sequence", "hypothesis_geometry/_core/base.py:to_non_crossing_non_overlapping_segment_sequence_strategy", "hypothesis_geometry/_core/base.py:to_mix_strategy"]}
{"id": "C52", "title": "Pieces of composite shapes are ordered however operations round", "statement": "With any arithmetic: polygons of a multipolygon are ordered along one of the axes (no vertex of an earlier one is after a vertex of a later one, and an edge of an earlier border across the axis is strictly before the later border), or they have no holes and their borders are separated by a point in a lexicographic order; contours of a multicontour and holes of a polygon are separated in the same way; in a mix, along one axis, points are strictly beside segments and polygons, segments are beside borders, polygons are ordered and segments come in ordered groups, each of them a value of `segments` or of `multisegments` for the same coordinates.", "quantifier": "all linearly ordered coordinate types, all functions + and -, all predicates, all coordinate strategies, sizes, arguments and draws", "why_tests_cant": "a violation needs particular choices of slab borders and touching pieces, and tests fix one number type", "anchors": ["hypothesis_geometry/_core/base.py:to_multipolygon_strategy", "hypothesis_geometry/_core/base.py:to_mix_strategy", "hypothesis_geometry/_core/factories.py:to_multicontour"]}
{"id": "C53", "title": "Simple values are all generated", "statement": "`contours` and `convex_contours` generate every counterclockwise triangle with drawable vertices when `min_size` is at most 3, and every axis-aligned rectangle with drawable corners when 4 is between the bounds. `contours` generates every contour of `convex_contours`, of `star_contours` and (for `min_size` at least 4) of `concave_contours` with the same arguments. `multisegments` generates every list of non-degenerate segments with drawable endpoints whose size is between the bounds and in which no two segments cross or overlap.", "quantifier": "all coordinate strategies, bounds, triangles, rectangles, contours and lists of segments", "why_tests_cant": "tests see values that were generated; that a value can never be generated is not visible in any finite number of draws", "anchors": ["hypothesis_geometry/_core/base.py:to_vertex_sequence_strategy", "hypothesis_geometry/_core/base.py:to_convex_vertex_sequence_strategy", "hypothesis_geometry/_core/base.py:to_non_crossing_non_overlapping_segment_sequence_strategy"]}
{"id": "C54", "title": "Strategies generate something", "statement": "A strategy that was built without an exception has at least one value whenever enough different coordinates can be drawn: two per axis for points, segments, boxes, triangles, rectangles, `contours` and `convex_contours` with `min_size` at most 4; `min_size` different points for `multipoints`; `min_size` + 1 values of the second coordinate for `multisegments`; five per axis for `polygons` without required holes and border bounds reaching 5; five per axis for `concave_contours` with `min_size` at most 4, `max_size` reaching 5 and coordinates whose points are collinear only on horizontal or vertical lines; a prime number of at least five values per required piece for `multicontours`, `multipolygons` and `mixes` of pieces of the smallest sizes and coordinates whose points are collinear only on horizontal or vertical lines.", "quantifier": "all coordinate strategies with enough values, all bounds in the stated classes, all piece counts", "why_tests_cant": "an empty strategy makes a property test fail with Unsatisfiable or pass vacuously; it depends on combinations of bounds and coordinates that a test suite samples only sparsely", "anchors": ["hypothesis_geometry/_core/base.py:to_multicontour_strategy", "hypothesis_geometry/_core/base.py:to_polygon_strategy", "hypothesis_geometry/_core/base.py:to_mix_strategy", "hypothesis_geometry/_core/factories.py:to_multicontour", "hypothesis_geometry/_core/base.py:to_concave_vertex_sequence_strategy"]}
{"id": "C55", "title": "Looser upper bounds and more coordinates lose no values", "statement": "If every coordinate of one call can be drawn in another call with the same lower bounds and upper bounds at least as large (or absent), every value of the first call is a value of the second; for `mixes` the upper bound on the number of points has to be the same.", "quantifier": "all strategies of the package, all coordinate strategies with one included in the other, all bounds, any arithmetic", "why_tests_cant": "it compares sets of generable values of two calls", "anchors": ["hypothesis_geometry/planar.py", "hypothesis_geometry/_core/base.py"]}
{"id": "C56", "title": "Sizes of contours that are never generated", "statement": "Let a prime of at least 5 be between `min_size` and `max_size`, and n > 4 a size such that no prime is between n and `max_size`. With coordinates whose points are collinear only on horizontal or vertical lines no contour of `contours`, `convex_contours`, `concave_contours` or `star_contours` has n vertices: with `max_size=6` and `min_size=4` there are no hexagons, while with `min_size=6` there are, so a smaller `min_size` can lose values.", "quantifier": "all generic coordinate strategies, all bounds and sizes without a prime between size and upper bound, all draws", "why_tests_cant": "that a size is never generated cannot be concluded from finitely many draws", "anchors": ["hypothesis_geometry/_core/base.py:to_point_sequence_in_general_position_strategy", "hypothesis_geometry/_core/utils.py:to_next_prime", "hypothesis_geometry/planar.py:contours"]}
{"id": "C57", "title": "Parts of multipolygons and mixes are values of the simpler strategies", "statement": "Every polygon of a mix is a value of `polygons` with the same coordinates and border and hole bounds, every point a value of `points`, and the segments are a sequence of groups, each a single value of `segments` or a value of `multisegments`. The polygons of a multipolygon are values of `polygons`, or (only if no holes are required) have no holes and their borders form a value of `multicontours`. Hence with exact arithmetic the polygons of a mix, and of a multipolygon with required holes, have a simple counterclockwise border, holes inside of it and apart from each other.", "quantifier": "all coordinate strategies, all bounds, all values; any arithmetic for the first part", "why_tests_cant": "membership in the set of values of another strategy cannot be decided by sampling", "anchors": ["hypothesis_geometry/_core/base.py:to_multipolygon_strategy", "hypothesis_geometry/_core/base.py:to_mix_strategy", "hypothesis_geometry/planar.py:mixes"]}
{"id": "C58", "title": "Shifted, scaled or converted coordinates give shifted, scaled or converted geometries", "statement": "Applying `x -> c*x + tx` to the abscissas and `y -> c*y + ty` to the ordinates (with one positive factor `c`), or converting them to another exact number type, changes the result of every constructor in exactly this way: the same exceptions and warnings, the same exceptions while drawing, and the values are the images of the values for the original coordinates. Nothing depends on where the origin is or on the unit of length.", "quantifier": "all constructors, all exact coordinate types, all positive factors and shifts, all coordinate strategies and bounds; third-party functions are assumed to commute with the change of coordinates, the iteration order of sets of points may differ", "why_tests_cant": "an equality between the sets of values of two strategies over infinite ranges of coordinates, shifts and factors cannot be settled by sampling", "anchors": ["hypothesis_geometry/planar.py", "hypothesis_geometry/_core/base.py", "hypothesis_geometry/_core/factories.py", "hypothesis_geometry/_core/triangular.py:Triangulation.delaunay"]}
{"id": "C59", "title": "Looser lower bounds lose no values when a prime fits under the upper bound", "statement": "Two calls of the same constructor with the same coordinates and the same upper bounds are compared, the lower bounds of the second one being at most those of the first one. If the upper bound on the total number of points is absent or a prime not below 5 lies between the lower and the upper bound of the first call (for contours and multisegments a lower bound of at most 5 suffices as well, for multipoints nothing is needed), then every value of the first strategy is a value of the second one. Without such a prime this is false (C56: hexagons are generated for 6..6 but not for 4..6).", "quantifier": "all coordinate strategies, all values, any (rounding) arithmetic, all dependencies, and all bounds accepted by multipoints, contours, convex, concave and star contours, multisegments, multicontours, polygons, multipolygons (non-negative number of holes) and mixes", "why_tests_cant": "The claim compares the complete sets of values of two strategies; a sampled value of the stricter strategy would have to be found among the infinitely many values of the other one, and the exception depends on the distribution of primes.", "anchors": ["hypothesis_geometry/planar.py", "hypothesis_geometry/_core/base.py:to_point_sequence_in_general_position_strategy", "hypothesis_geometry/_core/base.py:to_polygon_strategy", "hypothesis_geometry/_core/base.py:to_multipolygon_strategy", "hypothesis_geometry/_core/base.py:to_mix_strategy", "hypothesis_geometry/_core/utils.py:to_next_prime"]}
{"id": "C60", "title": "Convex contours with more than three vertices have an edge parallel to an axis", "statement": "Whenever convex_contours (with exact coordinates) yields a contour, the contour is a triangle or at least one of its edges is horizontal or vertical. So, for example, with a minimal size of four or more no convex contour in which all edges are slanted is ever generated, whatever coordinates are given.", "quantifier": "all coordinate strategies, all accepted bounds, all random choices, all values; dependencies are only assumed to compute convex hulls and to order angles by quadrants and half axes", "why_tests_cant": "The statement is about what is never generated: tests that draw samples can only fail to find a slanted quadrilateral, they cannot rule it out, and that every sample has such an edge looks like a coincidence.", "anchors": ["hypothesis_geometry/planar.py:convex_contours", "hypothesis_geometry/_core/base.py:to_convex_vertex_sequence_strategy", "hypothesis_geometry/_core/base.py:to_point_sequence_in_general_position_strategy", "hypothesis_geometry/_core/factories.py:to_convex_vertex_sequence"]}
{"id": "C61", "title": "Every admissible number of elements occurs", "statement": "For any numbers of points, segments and polygons within the given bounds, at least two of them positive, mixes has a value with exactly these numbers, provided enough coordinates in generic position are available. In the same way every number of elements within the bounds occurs among the values of multisegments, multicontours and multipolygons (given a prime under the upper bound on the total number of vertices).", "quantifier": "all coordinate strategies with enough distinct coordinates in generic position, all accepted bounds with no minimal number of holes and room for pentagonal borders, all counts within the bounds", "why_tests_cant": "Existence of a value for each of unboundedly many combinations of counts; sampling tests see a few combinations, and one that never occurs is indistinguishable from a rare one.", "anchors": ["hypothesis_geometry/planar.py:mixes", "hypothesis_geometry/planar.py:multisegments", "hypothesis_geometry/planar.py:multicontours", "hypothesis_geometry/planar.py:multipolygons", "hypothesis_geometry/_core/base.py:to_mix_strategy", "hypothesis_geometry/_core/base.py:to_multisegment_strategy", "hypothesis_geometry/_core/base.py:to_multicontour_strategy", "hypothesis_geometry/_core/base.py:to_multipolygon_strategy"]}
{"id": "C62", "title": "Every admissible number of holes occurs", "statement": "If triangular borders and holes are allowed, polygons has a value with exactly k holes for every k within the bounds on the number of holes, required or not, given enough coordinates in generic position. multipolygons and mixes have values for every admissible list of numbers of holes, together with every admissible number of polygons, points and segments. So hole bounds can be met and no number of holes is silently left out.", "quantifier": "all coordinate strategies in generic position, all accepted bounds admitting triangles, all numbers of holes k within the bounds, any prime p >= 6k+3 such that p coordinates of either axis can be drawn, borders of (p+3)/2 vertices are allowed and the total upper bound is at least p", "why_tests_cant": "Existence of a value for each of unboundedly many numbers of holes; a generator which never makes holes, or never more than a few, passes all checks of the bounds on sampled values.", "anchors": ["hypothesis_geometry/planar.py:polygons", "hypothesis_geometry/planar.py:multipolygons", "hypothesis_geometry/planar.py:mixes", "hypothesis_geometry/_core/base.py:to_polygon_strategy", "hypothesis_geometry/_core/factories.py:to_polygon"]}
{"id": "C63", "title": "Parts in a row are generated together", "statement": "Polygons drawn from successive blocks of coordinates of one axis can be combined: multipolygons has the list of them as a value. In the same way mixes has a value whose parts are given multipoints, segments, multisegments and polygons in any order along one axis, no two neighbours of which are segments or polygons. The parts are given as values of the simpler constructors over their blocks. So the collections lose no order of parts and no part, the converse of C57.", "quantifier": "any ordered arithmetic (also rounding), all coordinate strategies, all accepted bounds, all lists of parts over increasing blocks of coordinates of either axis whose numbers are within the bounds; for multipolygons all blocks but the last have a prime length, no longer than the average of the remaining ones less one; for mixes all polygon blocks have the same prime length", "why_tests_cant": "Existence of a value for each of infinitely many arrangements; a generator which always puts the points first, or never puts a polygon left of a segment, passes all checks on sampled values.", "anchors": ["hypothesis_geometry/planar.py:multipolygons", "hypothesis_geometry/planar.py:mixes", "hypothesis_geometry/_core/base.py:to_multipolygon_strategy", "hypothesis_geometry/_core/base.py:to_mix_strategy"]}
{"id": "C64", "title": "With many coordinates everything admissible occurs, whatever the coordinates are", "statement": "If the strategy for the ordinates has enough different values (for example all integers, which have many collinear points), concave contours exist, polygons occur with every number of holes within the bounds, multicontours with every number of contours, multipolygons with every list of numbers of holes, and mixes with every combination of counts of points, segments and polygons with their numbers of holes. It does not matter whether drawn points may be collinear, nor whether the coordinate strategies can also fail.", "quantifier": "all exact ordered arithmetics, all coordinate strategies with at least n different abscissas and n^3*m^2+m different ordinates (n and m depend on the requested counts as in C54, C61 and C62), all accepted bounds which allow triangular borders and holes, all requested counts within the bounds", "why_tests_cant": "Existence of a value for each of infinitely many requests and coordinate strategies; a run which does not show one proves nothing.", "anchors": ["hypothesis_geometry/planar.py:concave_contours", "hypothesis_geometry/planar.py:polygons", "hypothesis_geometry/planar.py:multicontours", "hypothesis_geometry/planar.py:multipolygons", "hypothesis_geometry/planar.py:mixes"]}
{"id": "C65", "title": "Convex contours of every possible size are generated", "statement": "Over coordinate strategies with enough different values, `convex_contours` generates a contour with exactly n vertices if and only if n is at least 3 and within the bounds and one of these holds: n is 3 or 4, or some prime number lies between n and the upper bound (always so without upper bound), or n is not above the first prime number (from 5) that is not below the lower bound. The same sizes occur among the values of `contours`, and no others if drawn points are on a line only when they share a coordinate. In particular convex contours of every size n >= 3 occur when both bounds are n, and without an upper bound every size from the lower bound occurs.", "quantifier": "all exact ordered arithmetics, all coordinate strategies with at least 2n different abscissas and 16n^3 different ordinates, all bounds that are accepted, all n", "why_tests_cant": "An equivalence over infinitely many sizes and strategies; a random search for a value with exactly n vertices in convex position practically never succeeds and its failure proves nothing.", "anchors": ["hypothesis_geometry/planar.py:convex_contours", "hypothesis_geometry/planar.py:contours", "hypothesis_geometry/_core/factories.py:to_convex_vertex_sequence", "hypothesis_geometry/_core/base.py:to_convex_vertex_sequence_strategy"]}
{"id": "C66", "title": "Star contours are convex polygons", "statement": "If the centroid of the region of a contour of `star_contours` is computed correctly, then the contour is a strictly convex polygon: read in its own or in the opposite direction, any three of its vertices turn left. The same if the computed point is any point on no line through two consecutive vertices. So `star_contours` adds no shape that is not convex.", "quantifier": "all exact ordered arithmetics, all centroid functions that are correct for the contour in question, all functions `atan2` that order vectors by polar angle, all coordinate strategies, bounds and draws", "why_tests_cant": "Absence of a whole kind of output over all draws; local turns at the vertices do not exclude that a contour winds around several times.", "anchors": ["hypothesis_geometry/planar.py:star_contours", "hypothesis_geometry/_core/factories.py:to_star_contour_vertices", "hypothesis_geometry/_core/contracts.py:angle_contains_point"]}
{"id": "C67", "title": "Convex contours have edges parallel to one axis only", "statement": "A contour of `convex_contours` is a triangle, a rectangle with sides parallel to the axes, or has edges parallel to exactly one of the two axes. So a convex contour with five or more vertices never has both a horizontal and a vertical edge, whatever the coordinates are.", "quantifier": "all exact ordered arithmetics, all convex hull functions, all functions `atan2` that respect quadrants and axes, all coordinate strategies, bounds and draws", "why_tests_cant": "Absence of a whole kind of output over all coordinate strategies and draws; no test run sees what is never generated.", "anchors": ["hypothesis_geometry/planar.py:convex_contours", "hypothesis_geometry/_core/base.py:to_convex_vertex_sequence_strategy", "hypothesis_geometry/_core/factories.py:to_convex_vertex_sequence"]}
{"id": "C68", "title": "Vertices drawn together differ in one of the coordinates", "statement": "All different vertices of a contour of `concave_contours` or `star_contours`, of all contours of a value of `multicontours`, or of a polygon (border and holes together) of `polygons`, `multipolygons` or `mixes` have different abscissas and at most two of them share an ordinate, or the other way around. A value of `contours` is one of `convex_contours` or has the same property. So these never contain both a vertical and a horizontal edge: L-shapes, rectangles with rectangular holes and other rectilinear shapes are not generated.", "quantifier": "all arithmetics (rounding included), all implementations of the external geometry functions, all coordinate strategies, bounds and draws", "why_tests_cant": "Absence of a whole kind of output over all coordinate strategies and draws; no test run sees what is never generated.", "anchors": ["hypothesis_geometry/planar.py:concave_contours", "hypothesis_geometry/planar.py:star_contours", "hypothesis_geometry/planar.py:multicontours", "hypothesis_geometry/planar.py:polygons", "hypothesis_geometry/planar.py:multipolygons", "hypothesis_geometry/planar.py:mixes", "hypothesis_geometry/_core/base.py:to_point_sequence_in_general_position_strategy"]}
{"id": "C69", "title": "The bounding box of a convex contour", "statement": "The least and the greatest abscissa of a contour of `convex_contours` are values of the abscissa strategy, likewise for ordinates. A contour with n > 4 vertices has at least n different drawn coordinates between the sides of its bounding box in one axis and at least n/2 + 1 in the other (rounded down). So over integers it is at least n - 1 long in one axis and n/2 in the other, and smaller convex polygons are not generated.", "quantifier": "all exact ordered arithmetics, all convex hull functions, all functions `atan2` that respect quadrants, all coordinate strategies, bounds, draws and numbers of vertices", "why_tests_cant": "Holds for every draw and every coordinate strategy; that small polygons are missing cannot be seen from samples.", "anchors": ["hypothesis_geometry/planar.py:convex_contours", "hypothesis_geometry/_core/base.py:to_convex_vertex_sequence_strategy", "hypothesis_geometry/_core/factories.py:to_convex_vertex_sequence"]}
{"id": "C70", "title": "Vertices need as many coordinates", "statement": "For every value of `concave_contours`, `star_contours` and `multicontours`, every polygon with its holes of `polygons`, `multipolygons` and `mixes`, and every contour with more than four vertices of `convex_contours` and `contours`: if n is the number of different vertices, there is a prime p with p >= 5 and p >= n such that both coordinate strategies have p different values. So with coordinates from a set of six values no polygon has more than five vertices, its holes included, and with four values only triangles and rectangles of `convex_contours` and `contours` are left.", "quantifier": "all coordinate strategies, bounds, draws and numbers of vertices; all arithmetics (rounding included) except for `convex_contours` and `contours`, where arithmetic is exact", "why_tests_cant": "An upper bound on all values for all coordinate strategies; tests see only some values.", "anchors": ["hypothesis_geometry/planar.py:concave_contours", "hypothesis_geometry/planar.py:star_contours", "hypothesis_geometry/planar.py:convex_contours", "hypothesis_geometry/planar.py:contours", "hypothesis_geometry/planar.py:multicontours", "hypothesis_geometry/planar.py:polygons", "hypothesis_geometry/planar.py:multipolygons", "hypothesis_geometry/planar.py:mixes", "hypothesis_geometry/_core/base.py:to_point_sequence_in_general_position_strategy"]}
{"id": "C71", "title": "Contours and polygons need as many coordinates", "statement": "A value of `multicontours` with k contours of at least n vertices each exists only if both coordinate strategies have a prime number of different values that is at least k * n. A value of `multipolygons` with k polygons exists only if one of the coordinate strategies has k * q different values, where q is the least prime that is at least five and at least the least number of vertices of a polygon with its holes, or, when no holes are required, only without holes and with a prime number of values in both axes that is at least k times the least border size.", "quantifier": "all arithmetics (rounding included), all implementations of the external geometry functions, all coordinate strategies, bounds, draws and numbers of parts", "why_tests_cant": "An upper bound on the number of parts of all values for all coordinate strategies; tests see only some values.", "anchors": ["hypothesis_geometry/planar.py:multicontours", "hypothesis_geometry/planar.py:multipolygons", "hypothesis_geometry/_core/base.py:to_multicontour_strategy", "hypothesis_geometry/_core/base.py:to_multipolygon_strategy"]}
{"id": "C72", "title": "Touching contours and holes form no rings", "statement": "Of a contour of a generated multicontour, all points it has in common with contours later in the list (even in the convex hulls) are one and the same vertex; the same for the holes of a generated polygon and of the polygons of multipolygons and mixes. Hence there is no ring: no closed walk over contours (holes) in which neighbours are different and touch and consecutive touching points are different. So contours that touch do not enclose a part of the plane between them and touching holes do not cut a polygon into pieces.", "quantifier": "all exact arithmetics, all coordinate strategies, all implementations of the external geometry functions (set iteration being a permutation), all bounds and draws, rings of any length", "why_tests_cant": "It quantifies over all closed walks over the parts of all values; a test of pairs does not see three holes that touch pairwise and cut a polygon.", "anchors": ["hypothesis_geometry/planar.py:multicontours", "hypothesis_geometry/planar.py:polygons", "hypothesis_geometry/planar.py:multipolygons", "hypothesis_geometry/planar.py:mixes", "hypothesis_geometry/_core/factories.py:to_multicontour", "hypothesis_geometry/_core/factories.py:to_polygon"]}
{"id": "C73", "title": "Polygons have a vertex in the lower left corner of their bounding box", "statement": "The border of every generated polygon has a vertex that is strictly to the left of and strictly below all other vertices of the polygon: it is the lower left corner of the bounding box, and no other vertex is on the left or the lower side of the box. The same for the polygons of mixes, for the polygons of a multipolygon (unless it has no holes and its borders are a generated multicontour), and for concave contours (if the centroid of the region is computed correctly, or the contour is not a star contour) when drawn points are on one line only if they share a coordinate; in that case the first contour of a multicontour has a vertex in the lower left corner of the bounding box of the whole multicontour. So, for example, rectangles, diamonds and the triangles (0, 0), (2, 0), (1, 1) and (0, 1), (1, 0), (2, 2) are never generated as polygons.", "quantifier": "all exact arithmetics, all coordinate strategies, all implementations of the external geometry functions (set iteration being a permutation, coin change representing a number as a sum), all bounds and draws", "why_tests_cant": "It says that shapes never occur; a test that draws examples cannot tell a shape that never occurs from one that is rare.", "anchors": ["hypothesis_geometry/planar.py:polygons", "hypothesis_geometry/planar.py:multipolygons", "hypothesis_geometry/planar.py:mixes", "hypothesis_geometry/planar.py:concave_contours", "hypothesis_geometry/_core/base.py:to_point_sequence_in_general_position_strategy", "hypothesis_geometry/_core/factories.py:to_polygon", "hypothesis_geometry/_core/factories.py:to_vertex_sequence"]}
{"id": "C74", "title": "Polygons have two topmost or two rightmost vertices", "statement": "The border of every generated polygon has two different vertices with the same ordinate such that no vertex of the polygon is above them, or two with the same abscissa such that none is to the right of them. The same for the polygons of mixes, for the polygons of a multipolygon (unless it has no holes and its borders are a generated multicontour), and for concave contours (if the centroid of the region is computed correctly, or the contour is not a star contour) when drawn points are on one line only if they share a coordinate. In particular, up to exchanging the axes a polygon with a triangular border has the vertices (a, b), (c, e), (d, e) with a < c < d and b < e; a triangle without horizontal and vertical edges is never generated as a polygon.", "quantifier": "all exact arithmetics, all coordinate strategies, all implementations of the external geometry functions (set iteration being a permutation, coin change representing a number as a sum), all bounds and draws", "why_tests_cant": "It says that shapes never occur; a test that draws examples cannot tell a shape that never occurs from one that is rare.", "anchors": ["hypothesis_geometry/planar.py:polygons", "hypothesis_geometry/planar.py:multipolygons", "hypothesis_geometry/planar.py:mixes", "hypothesis_geometry/planar.py:concave_contours", "hypothesis_geometry/_core/base.py:to_point_sequence_in_general_position_strategy", "hypothesis_geometry/_core/factories.py:to_polygon", "hypothesis_geometry/_core/factories.py:to_vertex_sequence"]}
{"id": "C75", "title": "Polygons are not small", "statement": "For every generated polygon there is a prime number p, at least five, at least the number of its different vertices (those of the holes included) and at least the numbers of vertices that were asked for, such that the bounding box of the border contains p different drawn coordinates in one axis and p / 2 + 1 in the other. With integers the bounding box is therefore at least p - 1 long and (p - 1) / 2 wide; no polygon over integers, not even a triangle, fits in a square with sides of length three. The same for the polygons of mixes, for the polygons of a multipolygon (unless it has no holes and its borders are a generated multicontour), and for concave contours (if the centroid of the region is computed correctly, or the contour is not a star contour) when drawn points are on one line only if they share a coordinate.", "quantifier": "all exact arithmetics, all coordinate strategies, all implementations of the external geometry functions (set iteration being a permutation, coin change representing a number as a sum), all bounds and draws", "why_tests_cant": "It bounds the size of all polygons from below, for all numbers of vertices; a test that draws examples cannot tell that small polygons never occur.", "anchors": ["hypothesis_geometry/planar.py:polygons", "hypothesis_geometry/planar.py:multipolygons", "hypothesis_geometry/planar.py:mixes", "hypothesis_geometry/planar.py:concave_contours", "hypothesis_geometry/_core/base.py:to_point_sequence_in_general_position_strategy", "hypothesis_geometry/_core/factories.py:to_polygon", "hypothesis_geometry/_core/factories.py:to_vertex_sequence"]}
