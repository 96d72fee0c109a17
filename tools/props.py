import json
P=[]
def c(title,statement,quant,why,anchors):
    P.append(dict(id="C%02d"%(len(P)+1),title=title,statement=statement,quantifier=quant,why_tests_cant=why,anchors=anchors))
g="src/permaviss/"
# arithmetic / gauss
c("inv_mod_p returns the inverse","For every prime p and every positive integer a not divisible by p, inv_mod_p(a, p) returns an integer m with 0 <= m < p and m*a = 1 (mod p); the Euclidean loop always terminates.","all primes p, all positive integers a with p not dividing a","infinitely many (a, p); the tests try two pairs",[g+"gauss_mod_p/arithmetic_mod_p.py:inv_mod_p"])
c("inv_mod_p raises exactly when there is no inverse","For p >= 2 and a > 0, inv_mod_p(a, p) raises ValueError iff gcd(a, p) != 1 (so a composite p is reported only when it shares a factor with a). For negative a the documented contract (an inverse is returned when p is prime and does not divide a) should also hold; the code instead always raises ValueError for a < 0.","all integers a, all p >= 2","error behaviour over all integers, including the whole negative half line",[g+"gauss_mod_p/arithmetic_mod_p.py:inv_mod_p"])
c("addition and matrix product mod p","add_mod_c, add_arrays_mod_c and multiply_mod_p return values in [0, p) that are congruent mod p to the integer sum / matrix product.","all integer scalars, arrays and conformable matrices, all p > 0","all sizes and all entries",[g+"gauss_mod_p/arithmetic_mod_p.py:add_mod_c",g+"gauss_mod_p/arithmetic_mod_p.py:add_arrays_mod_c",g+"gauss_mod_p/functions.py:multiply_mod_p"])
c("index_pivot is the last nonzero index","index_pivot(v) is the largest index with a nonzero entry, and -1 exactly when v is all zero.","all integer vectors","all lengths and contents",[g+"gauss_mod_p/gauss_mod_p.py:index_pivot"])
c("gauss_col terminates and never fails on reduced input","For every prime p and every matrix with entries in [0, p), gauss_col(A, p) terminates and raises nothing.","all primes, all matrix shapes, all entries in [0,p)","termination of a data dependent while loop",[g+"gauss_mod_p/gauss_mod_p.py:gauss_col"])
c("gauss_col records its column operations","gauss_col(A, p) returns (R, T) with A T = R (mod p), T upper triangular with ones on the diagonal, and all entries of R in [0, p).","all primes, all matrices with at least one row and entries in [0,p)","algebraic identity over all matrices",[g+"gauss_mod_p/gauss_mod_p.py:gauss_col"])
c("gauss_col gives unique pivots","The nonzero columns of the R returned by gauss_col have pairwise different pivots (last nonzero rows).","all primes, all matrices with at least one row and entries in [0,p)","structural postcondition over all matrices",[g+"gauss_mod_p/gauss_mod_p.py:gauss_col"])
c("gauss_col zero columns detect linear dependence","Column j of R is zero iff column j of A is a linear combination (mod p) of the columns of A before it; the number of nonzero columns of R is the rank of A; every prefix of columns of R spans the same space as that prefix of A.","all primes, all matrices with at least one row and entries in [0,p), all column indices","rank statement over all matrices",[g+"gauss_mod_p/gauss_mod_p.py:gauss_col"])
c("solve_mod_p is sound","If solve_mod_p(A, b, p) returns x, then A x = b (mod p), x has one entry per column of A and every entry is in [0, p).","all primes, all A, b with entries in [0,p)","all linear systems",[g+"gauss_mod_p/functions.py:solve_mod_p"])
c("solve_mod_p raises ValueError exactly on unsolvable systems","solve_mod_p(A, b, p) raises ValueError iff there is no x with A x = b (mod p) (A with at least one row). This is relied on for any integer A, b; the code needs entries reduced to [0, p): for unreduced b it can raise although a solution exists.","all primes, all A, b","non-existence of solutions is a universal statement",[g+"gauss_mod_p/functions.py:solve_mod_p"])
c("solve_matrix_mod_p solves A X = B^T","If solve_matrix_mod_p(A, B, p) returns X then A X = B^T (mod p) (the docstring says B; the rows of B are the right hand sides), and it raises ValueError iff no such X exists.","all primes, all A, B with entries in [0,p)","all linear systems",[g+"gauss_mod_p/functions.py:solve_matrix_mod_p"])
c("gauss_col_rad lifts respect the radii","If gauss_col_rad(A, R, s, p) returns (Red, T) then for every column j >= s, A[:, j] = -sum over k < s with R[k] <= R[j] of T[k, j] A[:, k] (mod p): only columns born no later are used, the reduced columns vanish and the first s columns are unchanged mod p.","all primes, all integer matrices, radius vectors and start indices","all matrices and radii",[g+"gauss_mod_p/gauss_mod_p.py:gauss_col_rad"])
c("gauss_col_rad raises RuntimeError exactly when a lift is impossible","gauss_col_rad always terminates; when the usable columns for each target (radius <= R[j]) have as many distinct pivots as their rank, it returns iff every target column lies in the span of its usable columns, and otherwise raises RuntimeError (the docstring announces ValueError).","all primes, all integer matrices, radius vectors and start indices","termination plus completeness over all inputs",[g+"gauss_mod_p/gauss_mod_p.py:gauss_col_rad"])
c("gauss_barcodes is sound and complete","gauss_barcodes returns coefficients such that, for each target column j, restricted to the rows alive at the birth of j, A[:, j] equals the combination of the columns k < start_index alive at that radius, with zero coefficients on every other column; it raises RuntimeError iff for some j no such combination exists.","all primes, all matrices with entries in [0,p), all row and column barcodes","all matrices and barcodes",[g+"gauss_mod_p/gauss_mod_p.py:gauss_barcodes"])
# simplicial
c("flag_complex lists exactly the cliques","For a graph given by edges [u, v] with u < v without repetition, entry d (1 <= d <= max_dim) of flag_complex(G, n, max_dim) lists every (d+1)-clique of G exactly once, as an increasing list of vertices, and nothing else; the result has max_dim+1 entries, entry 0 is n, and a negative max_dim raises ValueError.","all finite graphs, all dimensions","all graphs",[g+"simplicial_complexes/flag_complex.py:flag_complex"])
c("vietoris_rips lists exactly the small simplices","Entry d >= 1 of the complex returned by vietoris_rips(Dist, max_r, max_dim) lists, exactly once each and in increasing vertex order, the sets of d+1 points whose pairwise distances are all < max_r, for every 1 <= d <= max(max_dim,1).","all finite distance matrices, all max_r, all max_dim, every tie-breaking of the sort","all point clouds and all tie orders of the unstable argsort",[g+"simplicial_complexes/vietoris_rips.py:vietoris_rips"])
c("vietoris_rips birth radii are diameters","The radius stored for each simplex is the maximum of the pairwise distances of its vertices (0 for vertices).","all finite distance matrices, every simplex","all point clouds",[g+"simplicial_complexes/vietoris_rips.py:vietoris_rips"])
c("vietoris_rips is a sorted filtration","In every dimension the radii are nondecreasing, every face of a listed simplex is listed, and a face is never born after a simplex containing it.","all finite distance matrices with non-negative entries, all simplices and faces","all point clouds",[g+"simplicial_complexes/vietoris_rips.py:vietoris_rips"])
c("complex_differentials is the simplicial boundary","Column i of D[d] (d >= 2) has entry (-1)^k mod p in the row of the face missing the k-th vertex of simplex i and 0 elsewhere; D[1] has 1 at the first and -1 at the second vertex; all entries are in [0, p).","all finite simplicial complexes with increasing simplices, all p >= 2","all complexes",[g+"simplicial_complexes/differentials.py:complex_differentials"])
c("boundary of a boundary is zero","D[d] D[d+1] = 0 (mod p) for the differentials returned by complex_differentials.","all finite simplicial complexes (closed under faces, increasing simplices, no repetition), all p >= 2, all d >= 1","the test checks one five point cloud",[g+"simplicial_complexes/differentials.py:complex_differentials"])
# PH
c("persistent_homology representatives are cycles born on time","Every column of Hom[d].coordinates is a cycle (D[d] z = 0 mod p) supported on simplices with radius <= the birth of its bar.","all filtered complexes (sorted radii, D D = 0, faces born first), all primes","all filtered complexes",[g+"persistence_algebra/PH_classic.py:persistent_homology"])
c("finite bars die as boundaries","If a bar of Hom[d] dies at a radius below max_rad then its representative is the boundary of a chain of simplices of radius <= its death.","all filtered complexes, all primes, all bars","all filtered complexes",[g+"persistence_algebra/PH_classic.py:persistent_homology"])
c("bars alive at t form a basis of homology at t","For every degree d and every radius t < max_rad, the representatives of the bars with birth <= t < death form a basis of the homology H_d(X_t; Z/p) of the subcomplex of simplices with radius <= t.","all filtered complexes, all primes, all degrees, all radii","correctness of persistent homology over all filtrations",[g+"persistence_algebra/PH_classic.py:persistent_homology"])
c("bars count persistent Betti numbers","For s <= t < max_rad the number of bars of Hom[d] with birth <= s and death > t equals the rank of H_d(X_s) -> H_d(X_t).","all filtered complexes, all primes, all degrees, all pairs of radii","all filtrations and all pairs of radii",[g+"persistence_algebra/PH_classic.py:persistent_homology"])
c("Im and PreIm describe the boundaries","For every d, D[d+1] PreIm[d+1] = Im[d].coordinates (mod p) column by column, PreIm columns are supported on simplices of radius <= the birth of the Im bar, and for every t < max_rad the Im[d] columns with birth <= t form a basis of the boundaries of X_t.","all filtered complexes, all primes, all radii","all filtrations; the alignment survives sorting and filtering",[g+"persistence_algebra/PH_classic.py:persistent_homology"])
c("barcodes returned by persistent_homology are well formed","Every bar has birth < death <= max_rad, barcodes are in standard order (birth ascending, then death descending, after rounding), and barcode rows match coordinate columns.","all filtered complexes with radii < max_rad","all filtrations",[g+"persistence_algebra/PH_classic.py:persistent_homology",g+"persistence_algebra/barcode_bases.py:barcode_basis"])
c("local_persistent_homology is Vietoris-Rips homology","For any distance matrix the Hom computed by vietoris_rips + complex_differentials + persistent_homology is, at every radius t < max_r and degree d <= max_dim - 1, a basis of the simplicial homology of the Vietoris-Rips complex at t, and no step raises.","all finite distance matrices, all primes, all max_r > 0, all radii","end to end statement over all point clouds",[g+"spectral_sequence/MV_spectral_seq.py:local_persistent_homology"])
# barcode basis
c("barcode_basis keeps exactly the well defined bars","The constructor keeps, in order, exactly the bars with birth < death together with their coordinate columns, dim is their number, and it raises ValueError iff the coordinates have the wrong number of rows or columns, or a broken basis lacks a dim x dim differential.","all bar lists and coordinate matrices","all inputs",[g+"persistence_algebra/barcode_bases.py:barcode_basis.__init__"])
c("barcode_basis.sort is the standard order","sort() permutes bars, coordinates and broken differentials by one and the same permutation, the result is ordered by rounded birth ascending then rounded death descending, ties keep their order, and send_order returns that permutation.","all barcode bases, all precisions","all inputs",[g+"persistence_algebra/barcode_bases.py:barcode_basis.sort"])
c("active, birth, death and changes_list","active(t) lists in increasing order exactly the indices with birth <= t < death, birth(t)/death(t) those born/dying at t, changes_list all endpoints strictly increasing, and active is constant between consecutive changes.","all barcode bases, all radii","all radii",[g+"persistence_algebra/barcode_bases.py:barcode_basis.active",g+"persistence_algebra/barcode_bases.py:barcode_basis.changes_list"])
c("update_broken rewrites dying generators","update_broken(A, rad, p) replaces, in every column, each generator dying at rad by its broken differential mod p, leaves the matrix unchanged if nothing dies, and always returns zero on dying rows when broken differentials only involve generators that do not die at rad.","all broken bases, matrices and radii","all inputs",[g+"persistence_algebra/barcode_bases.py:barcode_basis.update_broken"])
# image kernel
c("pivot_check_reduce terminates with a fresh pivot","For prime p, pivot_check_reduce terminates, only adds multiples of earlier columns (the same multiples in M and T), and returns -1 with the column zero on active rows, or an active row that is the last active nonzero row and is not a pivot of an earlier column.","all primes, matrices, active rows and earlier pivots with nonzero pivot entries","the reduction adds inverse multiples repeatedly, termination depends on arithmetic mod p",[g+"persistence_algebra/image_kernel.py:pivot_check_reduce"])
c("image_kernel computes the kernel","For every morphism of barcode modules f: A -> B, at every radius t the columns of Ker alive at t, restricted to the generators of A alive at t, form a basis of ker(f_t), and dead columns restrict to zero.","all barcode modules and morphisms over Z/p, all radii","all morphisms and radii",[g+"persistence_algebra/image_kernel.py:image_kernel"])
c("image_kernel computes the image","For every morphism of barcode modules f: A -> B, at every radius t the columns of Im alive at t, restricted to the generators of B alive at t, form a basis of im(f_t). The code violates this when a kernel class loses its pivot generator and lands on a generator whose image bar is already dead: the bar of the image is then extended.","all barcode modules and morphisms over Z/p, all radii","all morphisms and radii",[g+"persistence_algebra/image_kernel.py:image_kernel"])
c("quotient computes M/N","For barcode bases N of a submodule of M (same ambient basis), quotient(M, N, p) is at every radius t a basis of M_t / N_t.","all pairs of submodules, all radii","all inputs",[g+"persistence_algebra/module_persistence_homology.py:quotient"])
c("module_persistence_homology computes homology","For every chain complex of barcode modules, Hom[d] is at each radius a basis of ker D[d] / im D[d+1]. The code violates this when Base[d-1] is zero and D[d+1] is not: it returns Base[d] without taking the quotient.","all chain complexes of barcode modules","all inputs",[g+"persistence_algebra/module_persistence_homology.py:module_persistence_homology"])
# cover
c("next_hypercube enumerates every position once","Starting from the zero position, iterating next_hypercube visits every position of the div grid exactly once in prod(div) steps in row-major order, and stays on the last one.","all dimensions and all div with positive entries","all grids",[g+"covers/cubical_cover.py:next_hypercube"])
c("generate_cover assigns a point to a cube iff it lies in the enlarged cube","points_IN[0][i] lists in increasing order exactly the indices of the points whose coordinates lie in the i-th division cube enlarged by overlap/2 on every side, with divided_point_cloud holding the same points.","all point clouds, div, overlaps (exact arithmetic)","all point clouds",[g+"covers/cubical_cover.py:generate_cover"])
c("generate_cover covers every point","Every point of the cloud lies in at least one cube (overlap >= 0, max_div >= 1). The code violates this when some coordinate is constant: the number of cubes is 0.","all point clouds (exact arithmetic)","all point clouds",[g+"covers/cubical_cover.py:generate_cover"])
c("small simplices lie in one cube","For a cloud that is not flat in any coordinate (otherwise there are no cubes, see the previous property), if overlap >= max_r then any set of points with pairwise distances <= max_r is contained in a single cube; this is what makes the Mayer-Vietoris result independent of the cover.","all point clouds and subsets (exact arithmetic)","all simplices of all point clouds",[g+"covers/cubical_cover.py:generate_cover"])
c("nerve graph is cube adjacency","nerve_hypercube_cover joins two different cubes exactly once iff their positions differ by at most one in every coordinate.","all dimensions, all div with positive entries","all grids",[g+"covers/cubical_cover.py:nerve_hypercube_cover"])
c("nerve has no simplex in its last dimension and is pure","Cliques of the nerve have at most 2^dim cubes, so the last entry of the returned nerve is empty and the columns range(nerve_dim) of the spectral sequence lose nothing; every nerve simplex that is not of maximal dimension has a coface, so the Cech differential never indexes an empty list of cofaces.","all grids","all grids",[g+"covers/cubical_cover.py:nerve_hypercube_cover",g+"spectral_sequence/spectral_sequence_class.py:cech_diff_local"])
c("intersection_covers is set intersection","intersection_covers(points_IN, simplex) lists, in increasing order, exactly the points that belong to every cube of the simplex.","all point lists and nerve simplices","all inputs",[g+"covers/cubical_cover.py:intersection_covers"])
# chains
c("local_chains sums are linear","a + b adds coordinates reference by reference, sums(chains, M) returns for each row of M the combination of the chains with those coefficients, and minus() negates mod p; shapes are preserved.","all local chains with increasing references, all coefficient matrices","all chains",[g+"spectral_sequence/local_chains_class.py:local_chains"])
c("Cech differential squares to zero","Applying cech_diff twice to any chains at (n, deg), n >= 2, on a column with at least one piece, gives zero mod p.","all covers, all chains, all positions","tests sample one point cloud",[g+"spectral_sequence/spectral_sequence_class.py:cech_diff",g+"spectral_sequence/spectral_sequence_class.py:local_cech_matrix"])
c("Cech and vertical differentials anticommute","cech_diff of the vertical boundary plus the vertical boundary of cech_diff is zero mod p, on a column with at least one piece and in the degrees up to the maximal dimension.","all covers, all chains, all positions","all covers",[g+"spectral_sequence/spectral_sequence_class.py:cech_diff",g+"spectral_sequence/spectral_sequence_class.py:local_cech_matrix"])
c("first page lift decomposes chains","When first_page_local_lift returns (gammas, betas) the given local chains equal Im gammas + Hom betas mod p, using only generators born at or before the lift radius.","all local persistent homology data, all chains and radii","all chains",[g+"spectral_sequence/spectral_sequence_class.py:first_page_local_lift"])
c("cech_diff_and_lift closes the zig-zag","The vertical boundary of the lift returned by cech_diff_and_lift plus the Cech differential of the chains equals the combination of first page classes given by Betas. The code violates this on cover pieces without homology classes in that degree, which it skips.","all covers and chains","all chains",[g+"spectral_sequence/spectral_sequence_class.py:cech_diff_and_lift",g+"spectral_sequence/spectral_sequence_class.py:cech_diff_and_lift_local"])
c("first page bookkeeping","add_output_first stores in cycle_dimensions the running totals of local Hom dimensions, in page_dim_matrix[1] their sum and in first_page_barcodes the concatenation of the local barcodes in nerve order.","all local outputs","all inputs",[g+"spectral_sequence/spectral_sequence_class.py:add_output_first"])
c("page sweep visits every needed position once","On page r >= 2 the loops of create_MV_ss process each position (n, deg) at most once, and exactly once whenever it can influence the returned homology (n + deg <= max_dim, n < nerve_dim).","all max_dim, nerve_dim and pages","all loop bounds",[g+"spectral_sequence/MV_spectral_seq.py:create_MV_ss",g+"spectral_sequence/spectral_sequence_class.py:add_output_higher"])
c("the last page is the limit page","With no_pages = min(max_dim+2, nerve_dim) every differential on pages >= no_pages that touches a position used in the result has source or target outside the spectral sequence.","all max_dim and nerve_dim","all sizes",[g+"spectral_sequence/MV_spectral_seq.py:create_MV_ss"])
c("parallel evaluation is deterministic","The result of the parallel maps does not depend on the order in which the workers run or finish.","all task lists and all completion orders","all schedules",[g+"spectral_sequence/MV_spectral_seq.py:create_MV_ss",g+"spectral_sequence/spectral_sequence_class.py:cech_diff_and_lift"])
c("persistent_homology[i] is the i-th homology","MV_ss.persistent_homology[i] holds the i-dimensional result for every i < max_dim. The code violates this when some diagonal of the limit page is zero: later entries shift.","all limit pages","all shapes of the limit page",[g+"spectral_sequence/MV_spectral_seq.py:create_MV_ss"])
c("spectral sequence result equals direct persistent homology","For overlap > max_r the barcodes in MV_ss.persistent_homology coincide with those of persistent_homology on the whole Vietoris-Rips complex.","all point clouds, all primes, all covers with overlap > max_r","the headline claim; tests try three clouds",[g+"spectral_sequence/MV_spectral_seq.py:create_MV_ss"])
c("take_sample returns distinct far apart points","take_sample returns max(1, min(n, no_samples)) points of the cloud at pairwise different indices for every random start, each new point maximises the distance to the points already taken, and every point of the cloud is within the smallest mutual distance of the sample.","all point clouds, all random starts","all random draws",[g+"sample_point_clouds/examples.py:take_sample"])
c("sample generators satisfy their shape equations","grid and grid_tridimensional return hdiv*vdiv(*ddiv) distinct points centred at the origin; circle, random_circle, torus3D and ball return points on/around the announced shape, and random_sphere returns points on the sphere of the given radius (the code always returns radius 1).","all parameters and random draws (real arithmetic)","all random draws",[g+"sample_point_clouds/examples.py"])
# additions
c("image_kernel preimages map to the image","The columns of PreIm returned by image_kernel are mapped by F to the columns of Im. The code violates this when an image column is replaced by F times a kernel element restricted to the active generators: the matrix T keeps the stale entries of the dead generators.","all barcode modules and morphisms over Z/p","all morphisms",[g+"persistence_algebra/image_kernel.py:image_kernel"])
c("the first differential is induced by the Cech differential","first_differential(n, deg) never raises and returns the matrix of the morphism of persistence modules that sends the class of a representative to the class of its Cech differential; classes are numbered piece by piece as in first_page_barcodes.","all point clouds, covers, positions and primes","all covers",[g+"spectral_sequence/spectral_sequence_class.py:first_differential",g+"spectral_sequence/spectral_sequence_class.py:cech_diff_and_lift"])
c("the first page is a complex","The composition of two consecutive matrices returned by first_differential is zero as a map of persistence modules, so that the second page is well defined.","all point clouds, covers, positions and primes","all covers",[g+"spectral_sequence/spectral_sequence_class.py:first_differential"])
c("the second page is the homology of the first page","When create_MV_ss returns, the barcode stored for the second page at each position (n, deg), deg < max_dim, is the barcode of ker/im of the first differentials there, as persistence modules. The code violates this when a column without classes is followed by a column with classes that are boundaries (the defect of module_persistence_homology).","all point clouds, covers, primes and positions","all covers",[g+"spectral_sequence/MV_spectral_seq.py:create_MV_ss",g+"spectral_sequence/spectral_sequence_class.py:add_output_higher"])
c("connected components computed from a cover are right","When create_MV_ss returns, the first entry of persistent_homology has, up to order, the bars of degree zero of the ordinary computation on the whole cloud, i.e. for 0 <= s <= t < max_r the bars through s and t number the rank of H_0(VR_s) -> H_0(VR_t). Conditions: overlap >= max_r, distances bound coordinate differences, no constant coordinate, and rounding to 7 decimals keeps the order of the ends of the bars of degree zero of the pieces.","all point clouds, covers with overlap >= max_r and primes","the headline claim in degree zero; tests try three clouds",[g+"spectral_sequence/MV_spectral_seq.py:create_MV_ss"])
c("extension problems are solved","Given the bars along a diagonal of the limit page and the matrix of extensions (column j says which combination of generators the generator j becomes when its bar ends), the basis appended to persistent_homology has the barcode of the persistence module described by these data: the bars through s <= t < max_r number the rank of the map from s to t. The code violates this for extensions through three levels, where the reduction may never end.","all lists of bars, all extension matrices and primes","all bars and matrices; tests reach one nontrivial extension",[g+"spectral_sequence/MV_spectral_seq.py:create_MV_ss",g+"persistence_algebra/image_kernel.py:image_kernel",g+"persistence_algebra/barcode_bases.py:update_broken"])
c("barcodes do not depend on the order of the points","For a symmetric distance, local_persistent_homology gives the same bars up to order in every degree when the points of the cloud are listed in another order; the way ties are sorted and the rounding used to order bars have no influence either.","all point clouds, permutations, sorting routines, primes and degrees","all permutations of all clouds",[g+"spectral_sequence/MV_spectral_seq.py:local_persistent_homology",g+"simplicial_complexes/vietoris_rips.py:vietoris_rips",g+"persistence_algebra/PH_classic.py:persistent_homology"])
c("a smaller maximal radius only cuts the bars","The bars computed with max_r are those computed with a larger max_r that are born before max_r, with their ends cut at max_r; max_dim has no influence on the degrees below it.","all point clouds, radii, dimensions and primes","all pairs of radii",[g+"spectral_sequence/MV_spectral_seq.py:local_persistent_homology",g+"persistence_algebra/PH_classic.py:persistent_homology"])
c("barcodes are stable under noise","If the distances of two clouds of the same size differ by at most eps, the bars of the first one that contain [s, t + 2 eps] are at most as many as the bars of the second one that contain [s + eps, t + eps], in every degree: bars longer than 2 eps do not disappear. More precisely the two barcodes are at bottleneck distance at most eps: bars can be matched one to one so that the births and the deaths of matched bars differ by at most eps and the bars left over are not longer than 2 eps.","all pairs of clouds of the same size, all primes and degrees","all perturbations",[g+"spectral_sequence/MV_spectral_seq.py:local_persistent_homology",g+"simplicial_complexes/vietoris_rips.py:vietoris_rips"])
c("bars of degree zero count connected components","All bars of degree zero are born at 0, and for 0 <= t < max_r those that contain t are as many as the connected components of the graph which joins the points at distance at most t; hence they do not depend on the prime.","all point clouds with a symmetric distance, all radii and primes","all clouds",[g+"spectral_sequence/MV_spectral_seq.py:local_persistent_homology",g+"persistence_algebra/PH_classic.py:persistent_homology"])
c("a change of units changes the bars accordingly","If all distances and max_r are transported by an increasing bijection which fixes 0, for instance multiplied by a positive number, then so are the ends of the bars in every degree.","all point clouds, increasing bijections, primes and degrees","all clouds",[g+"spectral_sequence/MV_spectral_seq.py:local_persistent_homology"])
c("with max_dim = 1 create_MV_ss always returns","With max_dim = 1, create_MV_ss never raises: no exception of the module homology, of the lifts and of the sums of representatives on the pages is reached. persistent_homology has exactly one entry, with the bars of degree zero of the ordinary computation on the whole cloud; hence the bars do not depend on max_div, overlap or the position of the cover. All bars of the pieces begin and end at 0, at max_r or at distances between points. Conditions: overlap >= max_r, distances bound coordinate differences, no constant coordinate, and rounding to 7 decimals keeps the order of 0, max_r and the distances.","all point clouds, covers with overlap >= max_r and primes","all clouds and covers; tests only see runs that succeed",[g+"spectral_sequence/MV_spectral_seq.py:create_MV_ss",g+"spectral_sequence/spectral_sequence_class.py:compute_two_page_representatives",g+"spectral_sequence/spectral_sequence_class.py:compute_higher_representatives"])
c("create_MV_ss returns on every valid input","For a cloud with more than one value in each coordinate, overlap >= max_r, distances that bound coordinate differences and a prime p, create_MV_ss raises no exception. The code violates this: lift_to_page leaves its loop at a zero module, so that extension raises RuntimeError although all pages are right; other exceptions come from the defects of module_persistence_homology and of the lift.","all point clouds, covers with overlap >= max_r, dimensions and primes","all clouds and covers; tests only see runs that succeed",[g+"spectral_sequence/MV_spectral_seq.py:create_MV_ss",g+"spectral_sequence/spectral_sequence_class.py:lift_to_page",g+"spectral_sequence/spectral_sequence_class.py:extension"])
c("a hole of dimension e needs 2e + 2 points","For e >= 1 and a cloud with at most 2e + 1 points, local_persistent_homology returns an empty barcode in degree e (for instance three points have no bars in degree one), for every distance table, max_r, max_dim > e and prime. The bound is sharp.","all point clouds with at most 2e + 1 points, all degrees, distances, radii and primes","all clouds and degrees",[g+"spectral_sequence/MV_spectral_seq.py:local_persistent_homology",g+"simplicial_complexes/vietoris_rips.py:vietoris_rips",g+"persistence_algebra/PH_classic.py:persistent_homology"])
c("a central point closes all holes","If some point of the cloud is at distance at most r from all points, every bar of positive degree (below max_dim) returned by local_persistent_homology is born before r and ends at or before r, and if r < max_r exactly one bar of degree zero ends after r.","all point clouds with a symmetric distance, all centres, radii, primes and degrees","all clouds",[g+"spectral_sequence/MV_spectral_seq.py:local_persistent_homology",g+"simplicial_complexes/vietoris_rips.py:vietoris_rips",g+"persistence_algebra/PH_classic.py:persistent_homology"])
c("points on a line and hierarchies have no holes","If the distances are the differences of one coordinate, or if they form an ultrametric, local_persistent_homology returns empty barcodes in all degrees from one to max_dim - 1, whatever the order in which the points are listed.","all clouds on a line, all finite ultrametric spaces, all orders of the points, radii, primes and degrees","all clouds and all orders",[g+"spectral_sequence/MV_spectral_seq.py:local_persistent_homology",g+"simplicial_complexes/vietoris_rips.py:vietoris_rips",g+"persistence_algebra/PH_classic.py:persistent_homology"])
c("a repeated point does not change the barcodes","If a point of the cloud is listed once more, at any position, local_persistent_homology returns the same bars up to order in every degree. Hence only the set of points matters.","all point clouds with a symmetric distance, all points and positions, primes and degrees","all clouds",[g+"spectral_sequence/MV_spectral_seq.py:local_persistent_homology",g+"simplicial_complexes/vietoris_rips.py:vietoris_rips",g+"persistence_algebra/PH_classic.py:persistent_homology"])
c("the Cech complex of the cover is exact","On the cover computed by create_MV_ss: chains on the intersections of n + 1 >= 2 cubes whose cech_diff is zero are the cech_diff of chains on the intersections of n + 2 cubes (or zero when there are none), using only simplices present at the same radius; if overlap >= max_r, chains on the cubes come from the intersections of two cubes exactly when they add up to zero, and every simplex of the cloud lies in a cube. Hence the total complex has the homology of the whole cloud.","all point clouds, covers, primes, columns, degrees, chains and radii","exactness is a statement about all chains on all covers",[g+"spectral_sequence/spectral_sequence_class.py:cech_diff",g+"spectral_sequence/spectral_sequence_class.py:local_cech_matrix",g+"covers/cubical_cover.py:nerve_hypercube_cover"])
c("loops found with a cover are right","With max_dim = 2, whenever create_MV_ss returns, persistent_homology has at most two entries, and they are the barcodes of degrees zero and one of the ordinary computation on the whole cloud, up to the order of the bars; a missing second entry stands for an empty barcode. Hence max_div and overlap have no influence on the result. Points may lie in any number of cubes and may be repeated. Conditions: overlap >= max_r, distances bound coordinate differences and vanish transitively (as every metric), no constant coordinate, and rounding to 7 decimals keeps the order of 0, max_r and the distances.","all point clouds, covers with overlap >= max_r, primes and runs that return","all clouds and covers; tests try three clouds",[g+"spectral_sequence/MV_spectral_seq.py:create_MV_ss",g+"spectral_sequence/spectral_sequence_class.py:extension",g+"spectral_sequence/spectral_sequence_class.py:high_differential"])
c("one entry on the second page: the barcode is right","Whenever create_MV_ss returns and the second page that it stores has no classes in total degree e outside the first column, nor in total degree e + 1 outside the first two columns (1 <= e < max_dim), the barcode of degree e in persistent_homology is that of the ordinary computation on the whole cloud, up to the order of the bars; a missing entry stands for an empty barcode. So users can read off the pages which degrees of the result are right, for any cover. Conditions: overlap >= max_r, distances bound coordinate differences, no constant coordinate, and rounding to 7 decimals keeps the order of 0, max_r and the distances.","all point clouds, covers with overlap >= max_r, primes, degrees and runs that return","all clouds, covers and degrees; the code is wrong for other second pages",[g+"spectral_sequence/MV_spectral_seq.py:create_MV_ss",g+"spectral_sequence/spectral_sequence_class.py:extension",g+"spectral_sequence/spectral_sequence_class.py:compute_two_page_representatives"])
c("cycles in the cubes are generated by the stored representatives","Whenever create_MV_ss returns, in every degree below max_dim the chains stored with the first column of the second page (Hom_reps) generate the cycles in the cubes: for a bar [b, d) the chain on each cube is a cycle of the Vietoris-Rips complex at b with vertices in that cube; from d on the sum over the cubes is a boundary in the complex of the whole cloud; and for 0 <= t < max_r every cycle at t with vertices in one cube is, up to a boundary of the whole complex, a combination of the sums of the bars that contain t. Conditions: overlap >= max_r, distances bound coordinate differences, no constant coordinate, and rounding to 7 decimals keeps the order of 0, max_r and the distances.","all point clouds, covers with overlap >= max_r, primes, degrees, radii and cycles","all clouds, covers and cycles",[g+"spectral_sequence/MV_spectral_seq.py:create_MV_ss",g+"spectral_sequence/spectral_sequence_class.py:compute_two_page_representatives",g+"spectral_sequence/spectral_sequence_class.py:add_output_higher"])
c("doubles and machine integers suffice for small primes","If p^2 is at most 2^53 (p <= 94906265) for doubles, or less than 2^63 for 64 bit integers, then gauss_col, inv_mod_p, solve_mod_p, gauss_col_rad, gauss_barcodes, persistent_homology and local_persistent_homology never round and never overflow: on arrays with entries 0..p-1 they return exactly what exact integers would give; multiply_mod_p does so if (number of columns)*(p-1)^2 is in the exact range, image_kernel if moreover (number of bars)*(p-1)^2 is, and module_persistence_homology if 2*(number of bars in a degree)*(p-1)^2 is (a million bars for doubles and p < 2^16). For the first prime above the bound for doubles a product is wrong.","all matrices, clouds, primes up to the bound, and all number formats that are exact up to some M","all matrices and all intermediate values",[g+"gauss_mod_p/gauss_mod_p.py:gauss_col",g+"gauss_mod_p/arithmetic_mod_p.py:inv_mod_p",g+"gauss_mod_p/functions.py:multiply_mod_p",g+"persistence_algebra/PH_classic.py:persistent_homology"])
c("with one cube create_MV_ss is the ordinary computation","With max_div = 1, create_MV_ss never raises, and persistent_homology consists of the barcode of degree zero followed by the nonempty barcodes of degrees 1 to max_dim - 1 of the ordinary computation on the whole cloud, up to the order of the bars. Conditions: two or more coordinates, none of them constant, overlap >= max_r, distances bound coordinate differences, and rounding to 7 decimals keeps the order of 0, max_r and the distances.","all point clouds, dimensions max_dim, primes and overlaps >= max_r","all clouds",[g+"spectral_sequence/MV_spectral_seq.py:create_MV_ss",g+"covers/cubical_cover.py:generate_cover"])
c("the position of the cloud has no influence","If all points of the cloud are translated by the same vector and translations keep the distances (as for every distance that is a function of the differences of the coordinates), generate_cover returns the same sets of points and the same nerve, and create_MV_ss returns exactly the same pages, representatives and barcodes, or raises the same exception (exact arithmetic).","all point clouds, translations, covers, radii, dimensions and primes","all clouds and translations",[g+"spectral_sequence/MV_spectral_seq.py:create_MV_ss",g+"covers/cubical_cover.py:generate_cover"])
c("bars and simplices have the same Euler characteristic","For every filtered complex and every radius t below max_rad, the alternating sum over all degrees of the numbers of bars returned by persistent_homology that contain t equals the alternating sum of the numbers of simplices present at t, and the Morse inequalities hold in every degree. For local_persistent_homology this means: the alternating number of sets of e + 1 points with mutual distances at most t, e = 0..max(max_dim,1), is the alternating number of bars that contain t.","all filtered complexes, clouds, radii and primes","all complexes and radii",[g+"persistence_algebra/PH_classic.py:persistent_homology",g+"spectral_sequence/MV_spectral_seq.py:local_persistent_homology"])
c("rounding does not break the cover","Close points share a cube when the cover is computed with numbers of bounded precision: if the coordinates of some points differ by at most overlap, generate_cover puts them in a common cube, on arrays of doubles and on arrays of integers. The code violates this: on integer arrays the corners are truncated and a point may lie in no cube at all; on doubles the errors of rounding may separate points. Proved: it suffices that overlap exceeds the differences by 50*2^-53*M on doubles, by 4 more on integers, where M bounds the coordinates and overlap.","all point clouds without constant coordinate, all monotone roundings with bounded error, max_div, overlap","errors depend on the numbers; tests use a few clouds",[g+"covers/cubical_cover.py:generate_cover"])
c("rounding in the cover does not change the barcodes","If overlap exceeds max_r by the errors of rounding (50*2^-53*M on doubles, 4 more on integers), create_MV_ss with a cover computed with rounding gives the barcodes of the ordinary computation: with max_dim = 1 it always returns, and degrees zero and one are right whenever it returns. With overlap = max_r this fails.","all point clouds without constant coordinate, monotone roundings with bounded error, covers, primes and runs that return","errors depend on the numbers; tests use a few clouds",[g+"spectral_sequence/MV_spectral_seq.py:create_MV_ss",g+"covers/cubical_cover.py:generate_cover"])
c("max_div bounds the number of cubes","generate_cover makes at least max_div cubes and at most max_div^dim, on clouds without constant coordinate. The code violates the upper bound on doubles: the quotient of the longest side by side may be rounded up, so that max_div = 49 gives 50 cubes for the two points 0. and 1. Proved: the claim with exact numbers, and at most (max_div + 1)^dim cubes with rounding.","all point clouds without constant coordinate, max_div and monotone roundings with bounded error","errors depend on the numbers",[g+"covers/cubical_cover.py:generate_cover"])
c("separate clusters contribute separately","If the points of a cloud fall into clusters such that points of different clusters are at distance at least max_r, the bars returned by local_persistent_homology in each degree are the bars of all the clusters together, in whatever order the points are listed.","all point clouds with a symmetric distance, clusters, radii, dimensions and primes","all clouds and partitions",[g+"spectral_sequence/MV_spectral_seq.py:local_persistent_homology",g+"persistence_algebra/PH_classic.py:persistent_homology",g+"simplicial_complexes/vietoris_rips.py:vietoris_rips"])
c("create_MV_ss depends on the distances only","With max_dim = 2, for runs of create_MV_ss that return and meet the conditions on the cover: two clouds whose points have the same mutual distances in some order give the same bars in degrees zero and one, whatever the covers; distances that differ by at most e change the bars by at most e at both ends; a smaller max_r cuts the bars; separate clusters contribute separately; the bars of degree zero do not depend on the prime.","all point clouds, covers with overlap >= max_r, primes and runs that return","all pairs of clouds and covers",[g+"spectral_sequence/MV_spectral_seq.py:create_MV_ss"])
c("samples of a cloud have nearby barcodes","For a distance with the triangle inequality, if every point of either of two clouds, of any sizes, is at distance at most delta of some point of the other one, their barcodes are at bottleneck distance at most 2 delta in every degree. More generally, if points of two clouds in different spaces are paired so that every point is in a pair and distances between pairs differ by at most eps, the barcodes are at bottleneck distance at most eps. The same holds for create_MV_ss with max_dim = 2 in degrees zero and one, whatever the covers, under the conditions of C75.","all pairs of point clouds of any sizes, all primes and degrees","all pairs of clouds",[g+"spectral_sequence/MV_spectral_seq.py:local_persistent_homology",g+"spectral_sequence/MV_spectral_seq.py:create_MV_ss",g+"simplicial_complexes/vietoris_rips.py:vietoris_rips"])
c("rounded distances give nearby barcodes","If the distances passed to vietoris_rips are off by at most eps, the barcodes returned by local_persistent_homology, computed with doubles and p <= 94906265, are at bottleneck distance at most eps of the barcodes of the exact distances computed with exact numbers, in every degree below max_dim. A relative error eta of the distances, at most R, gives bottleneck distance at most eta * R.","all point clouds, distances, errors, primes up to the bound and degrees","all clouds and all rounding errors",[g+"spectral_sequence/MV_spectral_seq.py:local_persistent_homology",g+"gauss_mod_p/gauss_mod_p.py:gauss_col",g+"simplicial_complexes/vietoris_rips.py:vietoris_rips"])
c("arrays passed to the eliminations are not changed","gauss_col, gauss_col_rad and persistent_homology leave every array that existed before the call unchanged, also when they raise, and also when the arrays passed share memory; gauss_col and gauss_col_rad return new arrays, different from each other.  The results are those of the functions on the contents of the arrays.","all arrays and transposed views in memory, all moduli, radii and start indices, runs that return and runs that raise","all inputs and all exits, including exceptions half way through the elimination",[g+"gauss_mod_p/gauss_mod_p.py:gauss_col",g+"gauss_mod_p/gauss_mod_p.py:gauss_col_rad",g+"persistence_algebra/PH_classic.py:persistent_homology"])
c("update_broken does not change its argument","update_broken(A, rad, p) leaves A unchanged and returns the updated coordinates.  The code violates this: the rows of the generators that die at rad are set to zero in the array of the caller.  Proved: no other array changes, no array changes if these rows are zero or no generator dies at rad, and the result is right.","all bases, arrays in memory, radii and primes","all arrays",[g+"persistence_algebra/barcode_bases.py:update_broken"])
c("runs in one process do not disturb each other","The result of create_MV_ss, and of the method extension of a spectral sequence, does not depend on other spectral sequences of the process, whether they are constructed before, after or at the same time by another thread, and whatever their primes.  The code violates this: the prime that signs of chains are reduced with is shared by all of them, so two threads with different primes disturb each other, and extension raises on a result after another call with a different prime.  Proved: calls one after the other never influence each other, threads that use the same prime neither, nor do threads with max_dim = 1.","all point clouds and arguments, all histories of constructions and all interleavings of threads","all schedules and histories; tests run one call at a time with one prime",[g+"spectral_sequence/local_chains_class.py:local_chains.minus",g+"spectral_sequence/spectral_sequence_class.py:spectral_sequence.extension",g+"spectral_sequence/MV_spectral_seq.py:create_MV_ss"])
c("the stored representatives are loops of the whole cloud","Whenever create_MV_ss returns with max_dim >= 2, the chains stored with the last page (Hom_reps) in total degree one give loops: at position (0,1) one list of chains on the cubes is stored, at position (1,0) chains on the intersections of two cubes followed by chains on the cubes; for each bar [b, d) of these positions the sum over the cubes of the chains on the cubes is a cycle of the Vietoris-Rips complex of the whole cloud at b, and for 0 <= t < max_r every cycle of dimension one at t is, up to a boundary, a combination of the sums of the bars that contain t, in exactly one way. So users can draw the loops that the bars stand for. The same holds in every degree e + 1 < max_dim for covers in which no point lies in three cubes, if every cube that has simplices of dimension e also has classes of degree e. Conditions: overlap >= max_r, distances bound coordinate differences and (in degree one) vanish transitively, no constant coordinate, and rounding to 7 decimals keeps the order of 0, max_r and the distances.","all point clouds, covers with overlap >= max_r, primes, radii, cycles and runs that return","all clouds, covers and cycles; tests look at barcodes only",[g+"spectral_sequence/MV_spectral_seq.py:create_MV_ss",g+"spectral_sequence/spectral_sequence_class.py:compute_two_page_representatives",g+"spectral_sequence/spectral_sequence_class.py:compute_higher_representatives"])
c("the points and the cycles stored with the first column stand for its bars","Whenever create_MV_ss returns, the chains of points stored with the first barcode of its result (Hom_reps of the last page at (0,0)), summed over the cubes, represent a basis of the homology of degree zero of the whole cloud: each is a chain of points at the beginning of its bar, and for 0 <= t < max_r every combination of points is, up to boundaries of edges of length <= t, a combination of the sums of the bars that contain t, in exactly one way. So they tell which components a bar stands for. In a degree e + 1 < max_dim the same holds for the chains stored with the first column of the second page, if the second page has no classes outside the first column in total degree e + 1 and outside the first two columns in total degree e + 2. Conditions: overlap >= max_r, distances bound coordinate differences, no constant coordinate, and rounding to 7 decimals keeps the order of 0, max_r and the distances.","all point clouds, covers with overlap >= max_r, primes, radii, chains and runs that return","all clouds, covers and chains; tests look at barcodes only",[g+"spectral_sequence/MV_spectral_seq.py:create_MV_ss",g+"spectral_sequence/spectral_sequence_class.py:compute_two_page_representatives",g+"spectral_sequence/spectral_sequence_class.py:compute_higher_representatives"])
c("what is returned for a modulus that is not prime is still right","For every modulus p >= 2, prime or not, and arrays with entries 0..p-1, gauss_col and solve_mod_p end; gauss_col raises ValueError or returns R, T with A T = R mod p, T upper triangular with ones on its diagonal and different pivots in different nonzero columns of R; solve_mod_p raises or returns a solution. So a composite modulus never gives a wrong solution. It is not always reported, and completeness needs a prime: for every composite p there is a system with a solution for which solve_mod_p raises ValueError, and a dependent column that gauss_col does not reduce to zero.","all moduli, matrices and right hand sides","all moduli and matrices",[g+"gauss_mod_p/gauss_mod_p.py:gauss_col",g+"gauss_mod_p/functions.py:solve_mod_p",g+"gauss_mod_p/arithmetic_mod_p.py:inv_mod_p"])
c("chains do not share memory","local_chains(ref, coord), sums, + and copy_seq change no array that existed before and hold their results in new arrays, different from each other, also when the arguments share arrays; minus() replaces arrays and writes to none. Hence writes to the arrays of a result never change chains stored before, in particular extension, which sets rows to zero in a copy, leaves the stored representatives unchanged. The exception is add_entry, which keeps the array of the caller: later writes to it change the chains.","all chains and arrays in memory, shared or not, all coefficients, masks and later writes","all ways in which arguments may share memory, all later writes",[g+"spectral_sequence/local_chains_class.py:local_chains",g+"spectral_sequence/spectral_sequence_class.py:extension"])
c("create_MV_ss on particular clouds","With max_dim = 2, for runs of create_MV_ss that return and meet the conditions on the cover (C75): an increasing change of scale of the distances and of max_r changes the bars of degrees zero and one by the same change of scale; the bars depend on the set of points only, not on their order or on how often they are repeated; points on a line, three points or less, and distances of a hierarchy of clusters give no bar of degree one; if a point of the cloud is within r of all others, bars of degree one end by r, and one component is left after r if r < max_r.","all point clouds, covers with overlap >= max_r, primes, changes of scale and runs that return","all clouds and covers; tests compare a few barcodes",[g+"spectral_sequence/MV_spectral_seq.py:create_MV_ss"])
c("calling extension again changes nothing","Calling the method extension of a spectral sequence again leaves the list extensions[n][deg] as it is. The code violates this: every call appends as many zero matrices as the list had after the first call. Proved: the first call stores the extension matrices, after any number of calls the list begins with them and the rest is zero, and whether a call raises does not depend on what earlier calls have stored.","all spectral sequences, positions and numbers of calls","all histories of calls; create_MV_ss calls the method once for each position, so tests do not see the second call",[g+"spectral_sequence/spectral_sequence_class.py:spectral_sequence.extension"])
c("image_kernel does not change its arguments","image_kernel(A, B, F, p, start_index) leaves every array that existed before the call unchanged, also when it raises: F is used without a copy when both bases are ordered, and update_broken writes to its argument, but all writes go to arrays that the call has made. The result, or the exception, is the one of the function on the matrix that F holds, so no write to one of the arrays of the function shows in another one, and a second call with the same F gives what it would give without the first. pivot_check_reduce writes to column col_idx of M and T and to nothing else.","all arrays and transposed views in memory, all bases with as many bars as their dimension says (ordered or not, broken or not), all moduli and start indices, runs that return and runs that raise","all inputs and all exits, including exceptions in the middle of the loop",[g+"persistence_algebra/image_kernel.py:image_kernel",g+"persistence_algebra/image_kernel.py:pivot_check_reduce",g+"persistence_algebra/barcode_bases.py:update_broken"])
c("module_persistence_homology does not change its arguments","module_persistence_homology(D, Base, p) and quotient(M, N, p) leave every array that existed before the call unchanged, also when they raise and also when the arrays in D share memory, and return, or raise, what the functions give on the matrices that the arrays hold. Hence calls one after the other on the same arrays, with any bases and moduli, do not influence each other.","all lists of arrays and transposed views in memory, all bases with as many bars as their dimension says, all moduli, any number of calls, runs that return and runs that raise","all inputs, all exits and all histories of calls",[g+"persistence_algebra/module_persistence_homology.py:module_persistence_homology",g+"persistence_algebra/module_persistence_homology.py:quotient",g+"persistence_algebra/image_kernel.py:image_kernel"])
c("the points of take_sample stand for the cloud","For a distance with the triangle inequality: if some k <= max(1, no_samples) points, of the cloud or not, have every point of the cloud within r, then the points of take_sample have every point of the cloud within 2 r, whatever the random start, and the barcodes of the sample are at bottleneck distance at most 4 r of those of the cloud in every degree; the same holds for create_MV_ss with max_dim = 2 in degrees zero and one, under the conditions of C75. With the same random number a smaller sample is the beginning of a larger one.","all point clouds, all distances with the triangle inequality, all random starts, all sets of centres, all radii and numbers of samples","all clouds, all random draws and all competing choices of points",[g+"sample_point_clouds/examples.py:take_sample",g+"spectral_sequence/MV_spectral_seq.py:local_persistent_homology"])
c("random clouds are reproducible","Each function for random point clouds draws, in order, the numbers that the generator of the process gives from its state on, and leaves it after exactly these (take_sample one, random_circle and torus3D two for each point, random_sphere and random_cube dim for each point, ball a multiple of dim, none if torus3D raises). Hence points drawn in two calls of random_circle, random_sphere or random_cube are those of one call. After a call with a seed nothing that follows depends on what was drawn before; hence calls without a seed after it are repeated, too, each time.","all generators, states and seeds, all arguments, all sequences of calls","all histories of calls in a process",[g+"sample_point_clouds/examples.py:take_sample",g+"sample_point_clouds/examples.py:random_circle",g+"sample_point_clouds/examples.py:ball",g+"sample_point_clouds/examples.py:random_sphere",g+"sample_point_clouds/examples.py:random_cube",g+"sample_point_clouds/examples.py:torus3D"])
c("take_sample depends on the order of the distances only","If the distances between the points of two clouds correspond under a strictly increasing function that fixes zero, take_sample with the same random number takes the points at the same positions. Hence an isometry or a change of units moves the sample with the cloud, and squared distances give the same sample.","all point clouds, all pairs of distances, all increasing functions, all random starts and numbers of samples","all clouds and distances",[g+"sample_point_clouds/examples.py:take_sample"])
c("generate_cover: overlap, other points and units","For a cloud whose points do not all coincide: a larger overlap gives the same cubes and the same nerve and only adds points to the cubes and to their intersections, and with an overlap of at least twice the longest side of the box all points belong to all of them; the cubes and intersections that a point belongs to depend, for clouds in the same box, on the point only, not on its index or on the other points; if coordinates and overlap are multiplied by the same positive number, generate_cover gives the same sets of points and the same nerve.","all point clouds of any size and dimension that do not consist of one point, all numbers of divisions, overlaps and positive factors","pairs of runs of the function on all clouds and for all pairs of overlaps are compared",[g+"covers/cubical_cover.py:generate_cover",g+"covers/cubical_cover.py:intersection_covers",g+"covers/cubical_cover.py:corners_hypercube"])
c("the last degree holds cycles","In its last degree, max(max_dim, 1), local_persistent_homology returns the cycles of the Vietoris-Rips complex and not their classes: all bars end at max_r, and at each radius t the representatives of the bars that contain t are a basis of the cycles at t. So the number of bars is at least the Betti number, and only the degrees below it can be read as homology.","all finite point clouds, distances, primes, max_r > 0, max_dim and radii","representatives at every radius are compared with all cycles of all clouds",[g+"spectral_sequence/MV_spectral_seq.py:local_persistent_homology",g+"persistence_algebra/PH_classic.py:persistent_homology",g+"simplicial_complexes/vietoris_rips.py:vietoris_rips"])
c("bars of degree zero are a shortest tree","For a symmetric distance and a cloud with points, the bars of degree zero of local_persistent_homology are [0, max_r) and one bar [0, length) for each edge of a tree that connects the points, cut at max_r, edges of length zero having none; every set of edges that connects the points has, for every t, at least as many edges longer than t. Hence, if max_r exceeds the distances, the finite bars have the total length of the shortest network that connects the points. The same holds of the first entry of persistent_homology whenever create_MV_ss returns and overlap >= max_r.","all finite point clouds, symmetric distances, primes, max_r > 0, covers, and all sets of edges that connect the points","the bars are compared with all of the connecting sets of edges",[g+"spectral_sequence/MV_spectral_seq.py:local_persistent_homology",g+"spectral_sequence/MV_spectral_seq.py:create_MV_ss",g+"persistence_algebra/PH_classic.py:persistent_homology"])
open('/verif/properties.jsonl','w').write("\n".join(json.dumps(x) for x in P)+"\n")
print(len(P))
