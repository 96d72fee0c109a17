T["C01"] = ("proved", "")
T["C02"] = ("partial", "proved for a > 0; the unchanged code violates the contract for every a < 0 (negation proved)")
T["C03"] = ("proved", "")
T["C04"] = ("proved", "")
T["C05"] = ("proved", "")
T["C06"] = ("proved", "")
T["C07"] = ("proved", "")
T["C08"] = ("proved", "")
T["C09"] = ("proved", "entries reduced mod p, as the property states")
T["C10"] = ("partial", "proved for entries in [0,p); the unchanged code violates it for unreduced right hand sides (negation proved)")
T["C11"] = ("proved", "the transposition with respect to the docstring is also proved")
T["C12"] = ("proved", "")
T["C13"] = ("proved", "completeness under the stated pivot hypothesis; its necessity is shown by a witness")
T["C14"] = ("proved", "")
T["C15"] = ("proved", "Exact characterisation of every entry, error case, and closure under faces.")
T["C16"] = ("proved", "For every argsort that returns a sorting permutation (no stability assumed).")
T["C17"] = ("proved", "")
T["C18"] = ("proved", "Non-negative distances, as the vertices are born at 0.")
T["C19"] = ("proved", "")
T["C20"] = ("proved", "")
T["C28"] = ("proved", "")
T["C29"] = ("proved", "the IndexError on barcode_basis([]) is also proved")
T["C30"] = ("proved", "")
T["C31"] = ("proved", "")
T["C21"] = ("proved", "for every filtered complex; Vietoris-Rips complexes satisfy the hypothesis (vr_filtComplex)")
T["C22"] = ("proved", "also that the class is no boundary before its death")
T["C23"] = ("proved", "an explicit basis of the quotient module cycles / boundaries")
T["C24"] = ("proved", "rank of the induced map, and the action of the structure maps on the basis")
T["C25"] = ("proved", "")
T["C26"] = ("proved", "")
T["C27"] = ("proved", "simplicial homology is specified independently, on lists of vertices; scipy's pdist is a parameter with nonnegative entries")
T["C32"] = ("proved", "")
T["C33"] = ("proved", "absolute case, prime p, at least one bar in the domain; the rounding used for sorting must keep the order of births")
T["C35"] = ("partial", "the code violates the property in the coordinates of the returned generators (C35_violated); proved: the barcode of the quotient is right, as ranks of all maps of M/N, and the generators alive at a radius form a basis of M_t/N_t at every radius where the generators of N are all born; missing: the coordinates before, where the code is wrong")
T["C34"] = ("partial", "the code violates the property (C34_violated); proved: the nonzero alive generators form a basis, and the full statement when deaths are monotone in births or the morphism is zero")
T["C36"] = ("partial", "the code violates the property when a zero module lies below a nonzero one (C36_violated), and in the coordinates (C35_violated); proved: it always returns, Im generates the boundaries in every degree, and Hom[d] has the barcode of the homology exactly when it is not the case that the module in degree d - 1 is zero and there are boundaries in degree d; the generators of Hom are a basis of the homology in degree 0 at every radius, and in a positive degree over a nonzero module at the radii where the boundaries are born; missing: the other cases, where the code is wrong")
T["C57"] = ("partial", "the code violates the property (C57_violated); proved when deaths are monotone in births")
T["C37"] = ("proved", "")
T["C38"] = ("proved", "exact arithmetic over any ordered field with a floor; degenerate inputs raise ValueError (C38_degenerate)")
T["C39"] = ("partial", "the code violates the property for clouds that are flat in a coordinate (C39_violated); proved otherwise")
T["C40"] = ("proved", "")
T["C41"] = ("proved", "also every simplex of the nerve is characterised")
T["C42"] = ("proved", "")
T["C43"] = ("proved", "for the function and for the regions returned by generate_cover")
T["C44"] = ("proved", "chains are read as functions of reference and coordinate; the need for increasing references is shown by a witness")
T["C49"] = ("proved", "")
T["C50"] = ("proved", "the schedule, and the effect: every processed entry is the result of exactly one computation from the previous page, all others are unchanged")
T["C51"] = ("proved", "")
T["C52"] = ("proved", "Pool.map is modelled with chunks of any size completing in any order; which of several exceptions is raised may depend on the order")
T["C53"] = ("partial", "the code violates the property when a diagonal is zero (C53_violated); proved when no diagonal is zero")
T["C54"] = ("partial", "the code violates the property: it returns four bars instead of three in degree two on ten points (C54_violated_degree_two), it raises on the witnesses of C54_violated and C54_violated_plane, and C53_violated shows a shift of the entries. Proved: degree zero for every run that returns (C61); degree one for every cover, every max_dim >= 2 and every run that returns (C54_plane_partial); the higher degrees when the cubes of the cover form a line or no point lies in three cubes next to each other, and no piece is skipped by the lift (C54_strip_barcodes_partial, C54_thin_barcodes_partial). For covers with points in three cubes next to each other the statement is false from degree two on (C54_violated_degree_two); C76 gives a condition on the second page under which a degree is right for any cover")
T["C45"] = ("proved", "for a column that is not empty; also what cech_diff computes on every simplex (C45_cech_diff), and that page 0 is always completed")
T["C46"] = ("proved", "for a column that is not empty, in the degrees of the complex that is stored")
T["C47"] = ("proved", "on every piece of every cover, with an exact criterion for when the lift exists")

T["C48"] = ("partial", "Betas are right on all pieces and use only classes alive at the radius (C48_betas), the lift on the pieces with classes in the degree (C48_zigzag_partial); the code violates the property on pieces without classes, which it skips (C48_violated, points of the plane)")
T["C58"] = ("proved", "for every cloud, cover, prime and position; births and deaths are respected (C58_morphism), and only classes alive at the birth of the column are used (C58_alive)")
T["C59"] = ("proved", "for every cloud, cover, prime and position")
T["C60"] = ("partial", "proved for roundings that keep the order of the ends of the bars: a position of the second page is right exactly when it is not the case that the column before it has no classes and some of its classes are boundaries; missing: the other positions, where the code is wrong (C36_violated)")

T["C61"] = ("proved", "for every run that returns; the hypothesis on rounding is part of the statement")
T["C55"] = ("proved", "for every value of np.random.rand(), in particular for the start -1; distances symmetric, nonnegative, zero on the diagonal")
T["C56"] = ("partial", "proved for grid, grid_tridimensional, circle, random_circle, torus3D, ball and random_cube over the reals; random_sphere ignores its radius (C56_violated), and its points have norm one (C56_random_sphere_partial)")
T["C62"] = ("partial", "proved for extensions with two levels, i.e. when the generators in the values of the extension matrix go to zero at their own death (always the case for covers by a strip of cubes), and for any number of levels when the call returns (C62_levels_partial); missing: that the call returns with more than two levels, which is false: image_kernel keeps outdated pivots and the reduction may not end (C62_violated)")
T["C63"] = ("proved", "")
T["C64"] = ("proved", "")
T["C65"] = ("proved", "C65_stability is the matching of bars; C65_noise the inequality of the numbers of bars through intervals")
T["C66"] = ("proved", "")
T["C67"] = ("proved", "")
T["C68"] = ("proved", "the only hypothesis on rounding is about 0, max_r and the distances (also for C61, C61_components_input)")
T["C69"] = ("partial", "the code violates the property (C69_violated, C54_violated, C54_violated_plane). Proved for max_dim = 1 (C68_max_dim_one), and for every max_dim when no point lies in three neighbouring cubes and two neighbouring cubes share at most three points (C69_few_shared_partial) or the intersections satisfy a condition on their bars (C69_thin_partial); then the result is also right")
T["C70"] = ("proved", "")
T["C71"] = ("proved", "")
T["C72"] = ("proved", "")
T["C73"] = ("proved", "")
T["C75"] = ("proved", "for runs that return; that every run returns is C69, which the code violates")
T["C74"] = ("proved", "distances bound coordinate differences in the part about the cubes")
T["C76"] = ("proved", "for runs that return, every cover and every degree; the condition is on the second page that the run stores")
T["C77"] = ("proved", "for runs that return; every cover, prime and degree below max_dim")
T["C78"] = ("proved", "the spectral sequence class is only modelled with exact integers")
T["C79"] = ("proved", "empty barcodes are left out of the list, see C53")
T["C80"] = ("proved", "exact arithmetic; rounding of coordinates is not modelled")
T["C81"] = ("proved", "")
T["C82"] = ("partial", "violated for integers and for doubles (witnesses); proved with a margin for the errors of rounding; the exponents of doubles are not bounded in the model")
T["C83"] = ("proved", "rounding in the computation of the cover only: distances are compared as they are tabulated, C78 deals with coefficients")
T["C84"] = ("partial", "violated for doubles (witness); proved with exact numbers, and with one more division per coordinate for rounded ones")
T["C85"] = ("proved", "")
T["C86"] = ("proved", "for runs that return, max_dim = 2, under the conditions of C75")
T["C88"] = ("proved", "")
T["C87"] = ("proved", "for create_MV_ss: for runs that return, max_dim = 2, under the conditions of C75")
T["C89"] = ("proved", "gauss_col_rad with as many radii as columns")
T["C90"] = ("partial", "violated (witness); proved: which rows change, that nothing else changes, and that the result is right")
T["C91"] = ("partial", "violated by threads with different primes and by the method extension on an older result (witnesses); proved for calls one after the other, for threads with the same prime, and for max_dim = 1")
T["C92"] = ("proved", "for runs that return; in degrees above one for covers without triple intersections, see C54 for the condition")
T["C93"] = ("proved", "for runs that return; in positive degrees if the second page shows that the first column is the only one, as in C76")
T["C94"] = ("proved", "")
T["C95"] = ("proved", "arrays with one row for each reference; the summands of + have the same number of columns on each piece; reference lists, which the code never writes to, are values")
T["C96"] = ("proved", "for runs with max_dim = 2 that return, degrees zero and one")
T["C97"] = ("partial", "violated: the list grows with every call (witness); proved: what the list holds after any number of calls")
T["C98"] = ("proved", "the bases built after the loop, from new arrays, are values")
T["C99"] = ("proved", "bases are values; quotient for bases with rectangular coordinates")
T["C100"] = ("proved", "")
T["C101"] = ("proved", "the generator is a parameter; the loop of ball has fuel")
T["C102"] = ("proved", "")
T["C103"] = ("proved", "")
T["C104"] = ("proved", "")
T["C105"] = ("proved", "")
