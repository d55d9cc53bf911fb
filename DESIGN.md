# Formal model of `hypothesis_geometry`

Everything below `lean/Verif` is Lean 4 (4.33.0) with a few Mathlib modules.

* `Verif/Model/*`  – the model, function by function, every definition cites `/repo` lines.
* `Verif/Spec/*`   – the vocabulary used to state properties (independent of the model's helpers).
* `Verif/Lemmas/*` – auxiliary lemmas.
* `Verif/Props/*`  – the property theorems, each with a non-vacuity `example`.

## Trusted base

* Lean's kernel; the axioms of every theorem are among `propext`, `Classical.choice` and
  `Quot.sound`; `Verif/Axioms.lean` prints them for every theorem of `MANIFEST.json`.
* The reading of the Python source (the code is never run).
* The reading of the dependencies, given by the parameters and contracts below.

### Coordinates

The model is written for coordinates in any linearly ordered type with arbitrary operations `0`,
`+`, `-` and arbitrary orientation and circle predicates (`class Predicates`), so it covers number
types whose operations round, such as finite floats. Not covered are NaN and infinities (they are
outside of a linear order closed under the operations as used).
`atan2` is an uninterpreted function with rational values (a float is a rational number).

A theorem stated for `[LinearOrder K] [Zero K] [Add K] [Sub K] [Predicates K]` holds however the
operations round: C01–C05 (without the orientation), C08, C10, C11, C17 (sizes), C19, C21, C25, C27, C28,
C31, C32, C34, C35, C39–C42, C44, C45 (point sets), C51, C52, C55.
A theorem stated for `[CommRing K] [LinearOrder K] [IsStrictOrderedRing K]` is about exact
arithmetic (`int`, `Fraction`), where the predicates are the signs of determinants
(`exactPredicates`). `Spec/Rough.lean` is a number type that rounds; `Props/Rounding.lean` shows
a draw over it for which the clamping of convex contours matters.

### Hypothesis strategies

A strategy is the pair of the set of values it can generate and the set of exceptions a draw can
end with (`Model/Strategy.lean`). `filter` keeps the values that satisfy the test; rejected
draws are not observable. Probabilities, shrinking, health checks and the retry limits of
`filter` are not modelled. `st.lists(unique=True)` over a strategy with too few distinct values
is the exception `unsatisfiable`; empty integer ranges, empty `sampled_from` and inverted sizes
are `invalidArgument`.

### Dependencies (`Model/Env.lean`)

| dependency | model |
|---|---|
| `ground` classes | records |
| `ground` `angle_orientation` | class `Predicates`; exact: sign of the cross product |
| `ground` point-in-circle | class `Predicates`; exact: sign of the in-circle determinant |
| `ground` `segments_relation` | exact predicate |
| `ground` `points_convex_hull`, centroids | parameters with contracts |
| `bentley_ottmann` `segments_cross_or_overlap` | parameter with contract |
| `locus` `nearest_segment` | parameter with contract |
| `decision` `coin_change(n, {2, 3})` | parameter with contract: a list of 2s and 3s with sum `n` |
| `dendroid` red-black set with key | ascending list with stored keys |
| Python `set` iteration order | parameter: any permutation |
| `random.Random` | arbitrary bits, permutations and choices |

`while` loops take fuel; running out is the exception `outOfFuel` (non-termination).

`empty_geometries` (`planar.py:50-69`) returns a constant and is not modelled.

## Findings (where the code does not do what a user would expect)

Each has a Lean witness (a concrete draw evaluated by the kernel) unless stated otherwise.

* `convex_contours` never yields a contour with more than three vertices that has no edge parallel to
  an axis (`C60_axis_edge`, for all inputs). Cause: the points in general position have the index
  `scale * i² mod p` in one of the axes, so `i` and `p - i` share a coordinate and the largest
  coordinate occurs twice; the difference of the two is a zero component of an edge vector.
  In the other axis all coordinates are different, so apart from rectangles there are never edges
  parallel to both axes (`C67_one_axis`).  The other contours and the polygons with
  their holes never have edges parallel to both axes (`C68_*`): no L-shapes.
* `polygons` and `mixes` only yield polygons with a vertex in the lower left corner of their
  bounding box and no other vertex on the left or lower side of the box (`C73_polygons`,
  `C73_mixes`): no rectangles, no diamonds, and the triangles (0, 0), (2, 0), (1, 1) and
  (0, 1), (1, 0), (2, 2) never occur. Cause: the point with the index zero is `(xs[0], ys[0])` and
  `scale * i² mod p` is zero for no other index.
  They also have two topmost or two rightmost vertices (`C74_polygons`), so triangles among them
  always have a horizontal or vertical edge (`C74_triangles`). Cause: `i` and `p - i` share a coordinate.
  Small polygons never occur: over integers the bounding box is at least 4 long and 2 wide
  (`C75_integers`), because at least five points are drawn and the border spans all of them.
* `convex_contours` over integers never yields a polygon with n > 4 vertices that is less than n - 1
  long in both axes (`C69_integers`), such as a hexagon in a square with side two.
* `contours`, `concave_contours` and hence `multisegments` can self-intersect
  (`C15_contours_not_simple`, `C15_concave_contours_not_simple`, `C18_multisegments_cross`).
  Cause: after cutting an ear, `candidate.right_from_end.flip()` acts on the edge that has just
  been deleted and is isolated, so the flip that should restore the triangulation is lost.
  The same holds for `multicontours` (`C15_multicontours_not_simple`). For a hole of `polygons` the
  construction notices and the draw ends in an `AssertionError` (`C22_polygons_assertion`).
  None of this can happen if drawn points are on one line only when they share an abscissa or an
  ordinate (`GenericCoords`): `C15_contours_partial`, `C15_concave_contours_partial`,
  `C15_multicontours_partial`, `C15_holes_partial`, `C18_multisegments_generic_partial`,
  `C22_check_partial`. With exact centroids star contours are no exception
  (`C15_contours_centroid_partial`, `C15_concave_contours_centroid_partial`,
  `C18_multisegments_centroid_partial`).
* `star_contours` and `contours` can be clockwise (`C15_star_contours_clockwise`): the second
  round of the loop sorts around the region centroid of the polygon of the first round, which can
  be outside of the remaining triangle.
* `star_contours` has no reflex vertices at all (`C46_star_one_direction`): the test of the loop
  discards every vertex whose orientation differs. Its contours are convex polygons, clockwise or
  counterclockwise, whenever the centroid is computed correctly (`C66_star_convex_centroid`): the
  centroid is then never on a line through an edge. So `star_contours` is a roundabout way to get
  convex polygons, and no contour of `concave_contours` comes from it (`C46_concave_not_star`).
* `multipolygons(min_holes_size=-1)` passes the validation and fails with `AssertionError`
  (`C32_multipolygons_negative`): `min_holes_size` is passed on without `max(..., 0)`.
* `_is_prime(3)` is false and `_is_prime(1)` is true (`C33_three`); harmless to users because
  the arguments used are never `1`, and `3` is replaced by the next or the prior prime.
* The clamping of convex contours to the coordinate range never does anything with exact
  arithmetic (`C09_no_clamping`).
* Read from the source, no theorem: `segment_to_max_x`/`segment_to_max_y` return the minimum in
  one helper, `drawers_with_point_counts[index + 1] is not draw_points` compares a tuple with a
  function (always true), and `ys_to_mix` does not shorten its slab to a prime number of
  coordinates as `xs_to_mix` does. The model has them as they are.
* A region centroid of a polygon without area divides by zero in the dependency; the model has a
  total function there.

### Statements that need care

* C36–C38: an exception of a draw may only be one of the geometric construction itself (the
  exception of `to_vertex_sequence` etc. on a set of enough points in general position); all
  other causes (too few coordinates, empty ranges, inverted sizes, missing primes) are excluded.
  C38 needs `x` and `y` to have the same number of values.
* The assertion of `to_next_prime` inside the general position strategy is evaluated when the
  strategy is created; the model reports it as an exception of a draw.
* C14 (no three consecutive collinear vertices) is proved for star and convex contours, for
  borders, for everything with `GenericCoords`, and for
  compressed lists without repetition; otherwise the boundary after cutting ears may visit a point twice,
  for such lists only "no equal neighbours" is proved (`compressContour_noStall`).

### The triangulation (C24, C47)

`Verif/Delaunay/*` proves, for any list of different points, that the divide-and-conquer
construction returns a Delaunay triangulation: a planar subdivision by edges that do not cross,
whose inner faces are counterclockwise triangles containing no other point and with empty circumcircles,
and whose outer face is the convex hull.

* `Face.lean` states the invariant (`Tgl`), over an ordered ring; the merge step is proved over
  ordered fields (`Base`, `Leaf`, `Tangent`, `Sweep`, `Loop`, `Merge`, `Driver`) and transferred to rings by running the algorithm in the
  field of fractions (`Frac`, `Map`, `Ring`: `delaunay_tgl`).
* `Hull.lean`, `HullWalk.lean` show that the boundary walk follows the hull.
* `Border.lean` (`Bord`) is the invariant of the border loop of `to_polygon`: a region bounded by a
  closed chain of darts and triangulated inside; removing a mouth keeps it.
* `BorderSimple.lean`, `SimpleCyc.lean`, `Area.lean` derive that the border (after `compress_contour`) is a simple
  polygon with positive area.
* `Winding.lean`, `HullIn.lean`, `Meets.lean`, `HoleFree.lean` show that the border goes once around every
  point of a hole edge and does not meet it (C24). Here `nearest_segment` is assumed to return a
  segment that meets the query if there is one (`FindsNearest`).

* `Flip.lean`: flipping the diagonal of a convex quadrilateral keeps a triangulated region.
  `MouthLoop.lean` is the invariant of the first loop of `to_vertex_sequence` (mouths, with its
  flips), `VertexSeq.lean` shows that without three points on a line the second loop (ears) does
  nothing; so the vertex sequence is the border of a triangulated region.
  `Lemmas/GoodContour.lean` covers convex contours, reversal and separated contours.

Assumption on `coin_change` (`Sums`): the returned numbers add up to the argument.

### No exceptions (C48–C50)

A loop of the model has a bound `env.fuel` on its rounds; exceeding it is the exception `.outOfFuel`,
which stands for a loop that does not end.

* `Delaunay/Total*.lean` show that the constructions return a value on every list of different points
  (without three points on a line for contours and holes) if `(n + 2)^2` rounds are allowed.
* `Lemmas/FuelMono.lean` shows that a value does not change when more rounds are allowed, and that an
  exception other than `.outOfFuel` stays.  So C48 excludes all exceptions of the library for any
  `fuel`; C50 excludes `.outOfFuel` as well.
* Contract of `coin_change` (`Coins`): the numbers add up to the argument and are `2` or `3`.
* `GenericCoords` is necessary for polygons with holes: `C22_polygons_assertion` is a draw over other
  coordinates that raises `AssertionError`.  For contours it is not known to be necessary.

## Plan per property

| id | modelled | proof |
|---|---|---|
| C01–C06 | whole strategy | exact characterisation of the generated set |
| C07–C09 | Valtr construction, hull as contract | list algebra of the vector chain; hull contract |
| C10, C17, C19, C21, C25, C27 | strategies with their filters and unions | case analysis over the branches |
| C11 | triangulation heap, chi-algorithm | invariant: every `start` stored in the heap is an input point |
| C12 | `are_vertices_non_convex` | unfolding to two vertices of different orientation; no turn is zero by C14/C15 for generic coordinates |
| C13, C14 | `compress_contour` | loop invariants |
| C15 | chi-algorithm | false of the code in general (see Findings); proved for `GenericCoords` by invariants of a triangulated region |
| C24, C47 | `Triangulation.delaunay`, `to_polygon` | see *The triangulation* above |
| C16 | star loop | loop exit condition; with true centroids by strict convexity (C66) |
| C18 | all branches of multisegments | collinear chains, contour edges, filter contract |
| C20, C22 | `to_multicontour`, hole loop of `to_polygon` | lexicographic separation of convex hulls |
| C23 | `_reverse_vertices` | list algebra |
| C26, C29, C30 | composite strategies | slab separation invariant; each group of segments is a value of `segments` or `multisegments`, so C18 applies inside of a group |
| C28, C31, C32 | `planar.py` | case analysis |
| C33–C35 | `utils.py`, general position grid | number theory (Mathlib primes, Bertrand) |
| C36–C38 | error sets of the strategies | arithmetic invariants over draw histories |
| C39 | all constructors | equality of strategies |
| C40, C41 | quad-edge heap | permutation algebra of `next`, finite orbits |
| C42 | `delaunay` | round counting |
| C43 | `to_max_convex_hull` | monotone chain invariant |
| C44 | `to_sub_sequence_strategy` | permutation + prefix |
| C45 | point sets: any permutation; edge sets: any `EdgeOrder` (a parameter of all theorems) | sorting by a total order; for edge sets the keys of different boundary edges differ in a triangulated region, so the sorted queue is the same for all orders.  Missing: the ear loop for points with slanted collinear triples, where the region may stop being planar (a search over 20000 dense point sets found no difference) |
| C48, C49 | all constructions, exceptions included | the invariants of the triangulated region show that every assertion holds, every lookup finds its key and every iterator has a next element |
| C51, C52 | as C08, C11, C26, C29, C30, for any arithmetic | the constructions only compare coordinates; clamping; invariant of the slab loops in terms of the order |
| C50 | bounds on the rounds of all loops | measures (edges, boundary darts, points left) decrease; more allowed rounds never change a result |
| C53 | converse direction of C06, C05, C17 | membership in the union branches of the strategies |
| C54 | as C48–C50; `Live` (a value or an exception) for the composite constructions | a strategy without exceptions of a construction that always ends in a value or an exception has a value; `concave_contours`: a hull with three or four edges and a point inside has an edge whose triangle ends inside (`Bord.inner_mouth`), exactly that triangle is cut off (`mouths_one`), and the border then turns both ways |
| C55 | `Strategy.Within` for every combinator (`Lemmas/Loosen.lean`) | monotonicity of unions, filters and lists; upper bounds only widen ranges |
| C56 | `to_point_sequence_in_general_position_strategy`: grid sizes are primes | length of a contour is at most the number of points and at most the drawn size |
| C57 | slab loops and drawers of mixes | slabs contain drawn coordinates, inclusion of strategies (C55), then the theorems on polygons |
| C58 | every constructor, in two systems of coordinates | naturality of every modelled function under a change of coordinates that keeps order and predicates (`Lemmas/Frame*.lean`), for similarities in `Props/Similarity.lean`; orders of sets of points by C45 |
| C59 | two calls with the same coordinates and upper bounds and lower lower bounds | the next prime is monotone, so the point lists of the stricter call are point lists of the looser one once a prime fits under the upper bound; the round-robin distribution of the maximal sizes does not depend on the smallest size (`distribute_lower`), so the drawn sizes stay drawable; pieces of multipolygons and mixes by induction over the slabs. The exception is C56_lower_bound |
| C60 | `to_convex_vertex_sequence` on points in general position | in one axis the largest coordinate occurs twice (`parabola_doubled`), so one vector has a zero component, and none is zero (`candidates_axis`); the closed walk sorted by angle is extreme along that vector (`axis_support`), hence the hull has an edge on that supporting line (`hull_edge`) |
| C61 | `to_mix_strategy` and all three branches of `mixes`; `multisegments`, `multicontours`, `multipolygons` | the strategy with both bounds equal to the count has a value (C54, `mixStrategy_counts`), and its values are values for wider bounds (`pointCounts_exact`, C55, C59) |
| C62 | `to_polygon_strategy`, `to_polygon`, `to_multipolygon_strategy`, `to_mix_strategy` | among p points drawn with the largest scale at most (p+3)/2 are vertices of the hull (`generalPosition_inner`); the others fill k triangles, each split off by the loop of `to_polygon` (`toPolygon_counts`); slabs of p coordinates for the polygons of collections (`slabLoop_holes`, `mixLoop_whole`) |
| C63 | `to_multipolygon_strategy`, `to_mix_strategy` | counts are chosen so that each slab is the block of its part, one more point than a prime if the next slab may touch; point and segment counts by any partition (`partition_any`), order by the permutation of drawers (`pieces_perm`) |
| C64 | as C54, C61 and C62 | among n^3*m^2+m ordinates m generic ones are chosen one after another, each avoiding the finitely many lines through the grid points so far (`slanted_exists`); the values of the smaller strategies are values of the larger ones by C55 |
| C65 | `toConvexStrategy`, `toConvexVertices`, `generalPosition` | coordinates without repeated differences (`sidon_exists`) in general position; a permutation of the vectors (`exists_pairing`) and coins for which the vectors sorted by angle form one chain with increasing slopes, whose hull has exactly the wanted number of corners (`chain_hull`, `convex_count_exact`); Bertrand's postulate bounds the prime; the converse is C56's count |
| C66 | as C16 and C46 | the vertices are sorted around the centroid of the previous round and the final centroid is strictly on the inner side of every edge; the line through both centroids is crossed only twice, so the contour goes around the final centroid once (`turning_convex`), and three vertices are either around it or within half a turn, where left turns add up (`window_convex`). A true centroid is on no line through an edge (`centroid_off_edges`): otherwise all parts of the contour would be on the sides of that line on which they have a moment of the same sign (`bow_signs`), but the moments around the centroid add up to zero |
| C67 | as C60 | in one axis all coordinates are different, so no vector has a zero there; a hull edge perpendicular to that axis would make two points of the walk extreme, but the steps change their sign only twice (`extreme_once`, `walk_no_edge`) |
| C68 | as C34 and C11 | one index of a drawn point is its position, the other a value of the parabola, which is taken at most twice (`parabola_thrice`); all vertices are among the drawn points |
| C69 | as C09 | the candidates reach the extreme drawn coordinates (C09) and lie between them (C08); the hull reaches as far as the candidates (`hull_support`); all drawn points are inside this box and differ as C68 says |
| C70 | as C34 and C11 | all vertices are among p drawn points, which are read off p coordinates in each axis |
| C71 | as C19 and C25 | the number of parts is drawn between bounds that are quotients of the number of drawn points or coordinates (`multicontourLoop_length`, `slabLoop_sizes`) |
| C72 | as C20, C22 and C57 | the first contour takes the least points in a lexicographic order and all later ones take the rest from its last point on (`multicontourLoop_chain`, `holeLoop_chain`); at the first contour of a ring both touching points are that point |
| C73 | as C47 and C57 | the point with the index zero has the least coordinate in both axes (`generalPosition_corner`); it is the first point of the triangulation, deleting a border edge never takes a point off the border (`Carved.keeps`, `MInv.loop_keeps`), and compressing does not remove a corner (`SC.compress_corner`) |
| C74 | as C73 | the indices `i` and `p - i` share the greatest value of `scale * i² mod p` (`generalPosition_farthest`); all drawn points are in the convex hull of the border (`Tgl.inHull`, `PolyRun.inHull`, `toVertexSequence_inHull`), so it has their extreme points as vertices (`farthest_sub`) |
| C75 | as C74 | all drawn points are in the convex hull of the border (`PolyRun.inHull`), so the border reaches as far in both axes (`InHull.between`); the drawn points have `p` different coordinates in one axis and more than `p / 2` in the other (`half_distinct`, `roomy_of_inHull`) |

Limits of C54: polygons with required holes are covered by C62 only, for triangular borders and
holes (all drawable points may be in convex position, then no polygon with a hole exists); not
covered are `star_contours` (the order by angle is an
unmodelled float computation) and large border sizes. C55 for `mixes`
keeps the upper bound on the number of points: a mix takes all coordinates left over by segments
and polygons for its points up to this bound, so that a larger bound changes the slabs. Lower
bounds are not monotone in general (C56; C59 says when they are).
