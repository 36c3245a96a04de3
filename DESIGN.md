# Formal model of Scotch in Lean 4 — design

## Trusted base

* Lean 4.33.0's kernel. No axioms are added; every property theorem depends on at most
  `propext`, `Classical.choice`, `Quot.sound`. The axioms of each theorem are listed in
  `AXIOMS.md` (output of `#print axioms`). No `sorry`, `admit`, `native_decide`, `bv_decide`.
* The reading of the C code: every definition of the model cites the file and lines it
  transcribes; `MODELLED.md` lists all of them. The transcription is manual and is trusted.
* The specifications (`Spec.lean` files), which are small and do not refer to the code.
* The compilation configuration that is modelled is the default one: debug macros
  (`SCOTCH_DEBUG_*`, `COMMON_DEBUG`) off, C99 semantics.
* Specified results of what is outside the repository: conversions of `fscanf`/`fprintf`, MPI
  collectives and point-to-point messages, POSIX mutexes and condition variables (with spurious wake-ups).

## Modelling conventions

* `Verif/Base.lean` defines the outcome monad `M` (`Except Fault`). A `Fault` is undefined
  behaviour (`oob`, `overflow`, `divZero`, `shift`, `null`) or, for loops whose termination is to be
  proved, `fuel`. A function that returns an error code in C returns it as an ordinary value; it is never
  confused with a fault. `Holds x Q`: the call `x` ends without fault in a state that satisfies `Q`
  (total correctness). `Post x Q`: partial correctness.
* C arrays are `Arr α`: an interval of valid indices `[lo, hi)` (based arrays "tax" keep their
  offset) and a content function. Any access outside the interval is a fault. Uninitialised
  memory is an arbitrary content function: theorems quantify over it (`junk` parameters).
* `Gnum`/`Anum`/`INT` are unbounded integers unless the property is about overflow or bit
  patterns. This is the main simplification: the theorems hold for executions without signed
  overflow. Machine ranges are explicit in: integer reader and graph files, random generator, shifts
  and sums in architectures, graph checker, hash functions of coarsening and meshes, weighted diameters,
  grouped allocation.
* `for` loops are `forUp`; `while` loops take fuel, and theorems prove that it is never exhausted.
* Random draws are the generator itself (C03, C04) or an arbitrary oracle.
* Floating-point results are arbitrary (oracle parameters), with a sign hypothesis where needed.
* Allocation succeeds, except in the theorems on allocation (C49). Byte sizes fit in `size_t`.
* Pointer structures (heap, gain table, option lists): nodes are integer addresses, nullable pointers are
  `Option`.
* Threads: C20, C34, C35, C50 are transition systems, one transition per statement or critical section, any
  interleaving. Elsewhere the threads of a phase, which write disjoint cells, run one after the other.

## File layout

* `Verif/Base.lean`, `Util`, `Seg`, `Enum`, `Hash`, `Post`, `Safe` — monad, arrays, loops, proof rules.
* `Verif/<Area>/Model*.lean` — transcription of the C code, with citations.
* `Verif/<Area>/Spec*.lean` — small independent specification.
* `Verif/<Area>/Lemmas*.lean` — helper lemmas.
* `Verif/<Area>/Props*.lean` — property theorems, each with a case that meets its hypotheses, and
  negations with witnesses.

## Properties: what is modelled, how it is proved

Status and theorem names are in MANIFEST.json.

* C01 (`TextIO`): `intLoad`, `intSave` on streams of characters; round trip by induction on digits. The most
  negative integer overflows when read back (`-` is applied after accumulation): negation proved.
* C02, C44 (`Sort`): template of common_sort.c (quick sort with its explicit stack, insertion pass) and partial
  sort; segment invariants, permutation and order, stack never overflows.
* C03, C04, C05, C45 (`Rand`): generator on machine words, permutation for every state, reset and save/load.
* C06–C12 (`Arch`): all routines on domains of classes cmplt, cmpltw, varcmplt, hcub, varhcub, mesh2/3/X, torus2/3/X,
  tleaf, ltleaf. Domains denote sets of processors; laws `ArchLaws`, `DistLaw`, `InclLaw`, `NumberLaws`. For
  class deco, see C59. Not modelled: deco2.
* C13–C16, C48 (`Graph`): check, base change, induced subgraphs, clone; refinement to the set of arcs.
* C17, C18 (`Graph/IO`): save and load on character streams.
* C19, C20 (`Coarsen`, `Match`): matching (sequential, threaded) and coarse graph building.
* C21 (`Color`): colouring.
* C22–C25, C27, C52 (`Order`): permutations, check, ranges, trees, files of orderings.
* C26, C55 (`HOrder`): halo graph orderings: strategies, nested dissection, connected components, Gibbs-Poole-Stockmeyer,
  simple, and compression of graphs (`ModelCp`: the whole of hgraph_order_cp.c; overflow of the hash sums and of `1 << 31` is not modelled, the values of the sums are shown not to matter); ordering by parts and by blocks (`ModelKp`: the whole of hgraph_order_kp.c, with an arbitrary partitioning method that gives parts in range, and of hgraph_order_bl.c); minimum degree (`ModelHx`: the whole of hgraph_order_hd.c, hgraph_order_hf.c, hgraph_order_hx.c and hall_order_hx.c: quotient graph, elimination tree, amalgamation of column blocks, traversal; the kernels hall_order_hd.c and hall_order_hf.c are arbitrary functions that return an assembly tree, `KernOk`; only the initialisation and the choice of pivots of the first one are modelled, in `ModelHd`). Separation strategies may be restricted to
  a class of graphs closed by taking subgraphs, and may be only partially correct (the ordering then is), which allows refinement and multilevel.
* C28 (`Bipart`), C29 (`Separ`): bookkeeping, checks, stores, strategies, greedy methods. C28 also has Fiduccia-Mattheyses refinement (`ModelFm`): hash table with growth in place, undo records, passes, exchange of parts, termination; and greedy graph growing (`ModelGg`), which it calls; exactifying, multilevel (coarsening, from C18/C19, down and up) and strategies, with termination (`ModelSt`); band graphs (`ModelBd`) and diffusion with any number of threads (`ModelDf`, floating-point operations are arbitrary functions), for positive edge loads.
  C29 also has Fiduccia-Mattheyses refinement of separators (`Separ/ModelFm`): gain table with two links per vertex, chain of changed vertices, undo records, passes; and multilevel (`ModelSt`), with strategies. Strategies are proved at once for total and for partial correctness (`Meets`), since refinement may not end. Band graphs (`Separ/ModelBd`, the whole of vgraph_separate_bd.c): breadth-first search from the separator, compact band graph with two anchor vertices, separation of the band graph, and its return to the graph. Diffusion (`Separ/ModelDf`), where floating-point operations are arbitrary.
* C31, C56 (`Kmap`): recursive bipartitioning (both versions), fixed vertices, frontier and cost, library calls.
* C32 (`Fibo`), C33 (`Gain`): heap and gain table; invariants over any history of operations.
* C34, C35, C50 (`Thread`): barrier, reduction and scan, launch; transition systems.
* C36 (`Context`): options, refinement to independent tables.
* C37, C38, C51 (`Mesh`): mesh to graph, dual graphs (Scotch, METIS), check.
* C40 (`Band`): band graph, distances, diameter.
* C41 (`MapIO`): mapping files.
* C42, C43, C53 (`Dist`): ranges, ghosts, halo exchange, folding plan.
* C49 (`Memory`): grouped allocation, accounting.
* C30: `vgraphSeparateEs` in whole (vgraph_separate_es.c): construction of the bipartite cut graph, matching, marking of rows and columns, choice between the two covers, and move of the
  selected vertices into the separator. The bipartition strategy is an arbitrary function that returns valid bipartitions. Proved by loop invariants; König's argument gives minimality when the
  matching has no augmenting path.
* C46 (Arch/ModelMatch): matchings of architectures as an abstract `Matcher` (invariant and measure), one instance per class; conclusion as an inductive predicate `Coarsens` over successive calls.
* C58 (Arch/ModelSub): construction of sub-architectures from any architecture that satisfies `ArchLaws` and any `Matcher`; the tree of domains in the arrays is related to an inductive binary tree (`Good`),
  from which the architecture laws are proved. The class is closed under restriction (`C58_nested`).
* C39 (`Fax`): block symbolic factorization of esmumps (symbol_fax.c, symbol_fax_graph.c) and its checker. The memory block shared by blocks, hash table, sort array and temporary blocks is modelled
  by the capacity of each of its areas. Structure of column blocks as an inductive predicate `T`, shown to be that of elimination; elimination tree argument (`T.son`); linked list of temporary blocks as a
  zipper (`Zip`). `May p`: correct result, or fault when `p`.
* C47 (ArchIO): texts as lists of characters; `archSave`/`archLoad` for all classes by recursion on the architecture. Round trip by a predicate `Toks` (the text holds these integers, then this rest), class by
  class, then induction over nested sub-architectures; reading arbitrary text with `Safe`/`Mild` (only overflows and null pointers can happen). `archSubArchBuild` and the two uncompiled
  forms of decompositions are parameters.
* C54 (`Build`): `SCOTCH_graphBuild` and `SCOTCH_graphData`; what arrays mean (`Args.Represents`) and what the manual requires (`Args.Legal`) are stated on the arrays, from 0, without the model.
* C57 (`Esmumps`): `esmumps2` on top of C54 and C39; the ordering is any function that gives valid orderings. The assembly tree (`Tree`) is stated with the fill of the block elimination.
* C59 (Arch/ModelDeco): construction of decomposition-defined architectures (`archDecoArchBuild2`) and routines on their domains. The tree is given by an inductive relation on heap numbers (`Under`); the accumulation loop is proved by
  an equation on the entries of the array, and the averages by an order on pairs of domains.
* C60 (Ovl/Model, Ovl/ModelSt, Ovl/ModelEs): partitioning with overlap. The recursion gives the list of accesses that calls make to the shared arrays; the list is run in any order (a permutation is part of the environment), which covers all the
  interleavings of threads, as cells of the frontier array are reserved under a lock. Coarsening and separation are those of C28 and C29, through their specifications. Proved by induction on the depth of recursion, with the set of
  original vertices that each access may write; the loads are proved by invariants of the loops that stamp parts.
* C61 (Ovl/ModelChk): the check of partitions with overlap. What it accepts is stated apart (`Checked`); the loops are proved by invariants, and the link with validity by counting the entries of the frontier array.
* C62 (Kmap/ModelSt): strategies for static mapping, and stores of mappings. Methods are arbitrary functions which give complete mappings when they succeed (`MapMethod`); proved by induction on strategies. Error codes are 0 or 1, thresholds
  `(Gnum) ((double) avg * kbalval)` are an arbitrary function, and `abs` is taken on integers of any size (the C function would truncate 64-bit values).
* C63 (Kmap/ModelChk): consistency check of mappings (`kgraphCheck`, `mapCheck`), for arbitrary contents of all the arrays. The specification `KChecked` is written with sums on vertices; loops on arcs are turned into sums by `Graph.arc_sum`, and the half of the sum
  of all costs into the cost of the mapping by `cost_half`. Not modelled: the old mapping of a remapping, the tests on null pointers.
* C64 (Msep/Model, ModelSt): separation of meshes (`vmeshZero`, `vmeshSeparateZr`, `vmeshSeparateGr`, which is in the method table of debug builds only, `vmeshCheck`, `vmeshStoreSave`, `vmeshStoreUpdt`, `vmeshSeparateSt`, by induction over strategies). The strategy for graphs is any `Separ.SepMethod`, for which C29 gives instances; the graph is the one of C37 (`NodeGraph`). Validity of the
  separation of the graph gives validity of the one of the mesh because nodes of a same element are adjacent. The check is proved by invariants of its three loops and a counting argument for the frontier array. Not modelled: `vmeshSeparateGg`, `vmeshSeparateFm`, `vmeshSeparateMl`.
* C65 (Msep/ModelHalo): the mesh without halo of a halo mesh (`hmeshMesh`). `Hmesh.Consistent` says what a halo mesh is, `WithoutHalo` what must be built; proved from the contents of the array of ends that is built by three copies.
* C66 (Msep/ModelInduce): the halo mesh that is induced by a part of a separation (`hmeshInducePart`). `Separation` says what the caller gives, `Induced` what must be built, by a renumbering of vertices; proved by invariants of the four loops (numbers of nodes,
  elements and their arcs, which are written from both ends, nodes of the part, nodes of the halo) in the logic of partial correctness: accesses out of arrays are not excluded. Consistency of submeshes, so that recursion may go on, follows from `Induced` and sums of lengths.
* C67 (Str/Model): replacement of patterns in strategy strings (`stringSubst`), in place, with functions of the C library as specified. `Replaced` says what the text must become; proved by induction over it, for places of reads and writes that are apart by the
  difference of lengths: what is before the place of writing is unchanged, so that what is moved later is still there.
* C68 (HOrder/ModelCheck): the check of halo graphs (`hgraphCheck`), on top of the one of graphs (`check`, C13). `Checked` says what it finds out; proved by invariants of its loops, and, for acceptance of right halo graphs, by comparison of sums over vertices that are
  not in the halo with sums over all vertices.
* C69 (Msep/ModelSi): simple orderings of meshes and submeshes (`hmeshOrderSi`); proved by an invariant of a loop that fills consecutive cells, and, on submeshes, from C66.
* C70 (Msep/ModelHchk): the check of halo meshes (`hmeshCheck`), on top of the one of meshes (C51). `HaloChecked` says what it finds out; proved to be exactly what is accepted.
* C71 (HOrder/ModelMbl): orderings of meshes by blocks (`hmeshOrderBl`), with an arbitrary strategy; proved from the properties of even distributions (C05), and by induction on the depth of calls for `C71_endless`.

Parts of the repository that are not modelled: parsers of strategy strings (bison grammar; strategies are abstract
syntax trees), drawing programs and command-line tools, generators of test graphs, compressed files, k-way band, diffusion and exact methods,
refinement of partitions with overlap (wgraph_part_fm), methods of mesh separation (vmesh) other than those of C64, mesh orderings other than the ones of C69 and C71, parallel bipartitioning and orderings (bdgraph, vdgraph, hdgraph, kdgraph), deco2
architectures, Fortran interfaces (argument passing only), timers and error printing.

## Disagreements between the code and the properties

Each one is a theorem unless marked (r), which means: found by reading, in code that is not modelled.

* C01: the most negative integer is not read back.
* C07: hypercubes of 31 and 32 dimensions are accepted, and shift by the width of the type.
* C09: `archMeshXDomDist` (arch_mesh.c:913–917) computes torus distances for meshes of any dimension.
* C11: `archDomTerm` accepts negative numbers; for weighted complete graphs this reads out of bounds.
  For decompositions, see C59.
* C12: `archTleafDomIncl` (arch_tleaf.c:658) tests overlap, not inclusion, at the same level.
* C06: variable-sized domains overflow before the test meant to stop them.
* C13: the overflow test of the checker relies on signed overflow. C15: graphs whose vertices share arc slots are accepted by
  the checker and broken by a change of base. C16: duplicate vertices in a list overflow the memory block.
* C17: a label equal to the largest integer overflows. C18: negative labels and arc ends are used as indices (graph_io.c:302,318).
* C19: hash product overflows when `(vertnnd - 1) * 1049` does not fit; `graphCoarsenMatch` without a coarse graph returns 0 even when the
  coarse graph is too large (r); the number of coarse vertices given by the user is not verified (r).
* C21: `SCOTCH_graphColor` (library_graph_color.c:145) skips neighbours coloured during the current pass: neighbours can get the same colour.
* C26: connected components and compressed graphs inside nested dissection number from 0 (hgraph_order_cp.c:478–489); the method that makes blocks reads loads of vertices by the numbers of the original graph, from the beginning of the inverse permutation (hgraph_order_bl.c:161): out of bounds inside nested dissection; it applies its strategy again to the whole graph for each sub-block (hgraph_order_bl.c:188–193), hence never ends when the strategy makes several blocks; method hd counts isolated vertices instead of summing their loads (hall_order_hd.c:498), and fails on a graph that has an isolated vertex of load 2 (`C26_hd_isolated`); failures of leaf strategies are ignored (hgraph_order_nd.c:178); a conditional
  strategy without else part leaves the permutation unwritten; an empty list of vertices fails; a graph with vertex numbers is ordered out of bounds.
* C27: `orderLoad` (order_io.c:96) trusts the vertex count and the permutation of the file.
* C28: `bgraphSwal`/`bgraphZero` (bgraph.c:225–254) mix loads with and without fixed vertices; `bgraphBipartGp` reads out of bounds when the average load is
  negative; `bgraphBipartZr` compares loads rather than sizes; the exchange of the parts in `bgraphBipartFm` (bgraph_bipart_fm.c:722–723) ignores the lower bound of the imbalance (`C28_fm_range_wrong`), and leaves the range. In the same file: a
  negative `movenbr` makes insertions loop for ever on graphs without frontier (r), the test `partval == 2` is never true (r), the failure of a resize is not returned (600–603, r), `abs` is applied to 64-bit values (r), the parameter `typeval` is never read (300, r), so that the choice between all vertices and boundary vertices has no effect. `bgraphBipartGg` without pass empties the frontier (`C28_gg_pass_wrong`), and divides by zero on graphs without vertices (`C28_gg_empty_wrong`). A selection may keep the bipartition of a strategy that failed, without reporting it (`C28_select_wrong`). `bgraphBipartBd` (361–366) omits arcs of load zero to the rest of the graph, so that the frontier that it brings back may miss vertices (`C28_band_wrong`). `bgraphBipartDf` (438) does not put in the frontier vertices whose cut edges have load zero (`C28_df_wrong`); when a value is not a number, it writes it at the end of the range of the loop, out of arrays for the last vertex (356–364, `C28_df_nan_wrong`), and the thread skips the reduction of line 371 for which others wait (r); line 380 adds the loads of anchors to themselves, so that the contributions that are reduced are never used (r); graphs with less than two vertices have no anchors (r).
* C29: `vgraphSeparateFm` finds the slot of a link of the gain table from the sign of the opposite of the vertex load; vertices of load zero, which `graphCheck` accepts, lead it out of the table (`C29_fm_load_wrong`). `vgraphSeparateFmResize` looks for a free slot without a bound, although the table may be full when the number of vertices is 512, 1024, … (`C29_fm_full_wrong`). Not proved: with a negative number of passes and a first separator that is not balanced, passes may alternate forever between separators, since the best separator is replaced by a heavier one as soon as the imbalance exceeds the limit; hence the hypothesis on balance in `C29_fm`. `abs`, on type `int`, is applied to values of type `Gnum`: `C29_fm_partial` holds whatever `abs` returns.
* C29: `vgraphSeparateDf` accesses memory out of its arrays on graphs with fewer than two vertices (`C29_df_wrong`). This does not happen on band graphs.
* C29: `vgraphCheck` accepts duplicates in the separator list; `vgraphSeparateGg` divides by zero on graphs with no vertex, and both growing methods when the weights of the
  parts are opposite; `abs` is applied to 64-bit values (r).
* C30: `vgraphSeparateEsCover` (vgraph_separate_es.c:194) starts with `levlmax = ~0` in a signed type, so the augmenting search never explores. Hence the cover is not always minimum (`C30_not_minimum`).
* C30: vgraph_separate_es.c:759 records `compload0 - compload1` as the load difference, without the weights of the parts (`C30_delta_wrong`).
* C46: archCmpltMatchMate (arch_cmplt.c:236–237) computes `passnum` from itself, so that the alternation of the odd vertex never happens; matchings remain correct (r). Labelled trees use the matching of unlabelled
  ones, on labels: correct, but not aligned with the topology (r).
* C57: `esmumps2` ignores the return values of `orderGraph` and `symbolFaxGraph`: when the ordering fails it returns 0 and the arrays are unchanged (`C57_failure_missed`). The bug of C39 can be reached (`C57_oob`).
  The comment on `nv` (esmumps.c:95–97) does not say what the code does (`C57_columns_not`). For `esmumpsv`, `velotab` and `nvtab` are the same array, written through one `restrict` pointer and read through another one, which is
  undefined behaviour in C; the model reads the array that is written, and results are right because a column block never reads weights of former blocks (r). With n = 0, the sizes of arrays are computed with a division by zero (r).
* C60: `wgraphPartRb2` (wgraph_part_rb.c:363–376), when part 1 of a separation is empty, goes on with part 0 and no part array; if only one part remains to be made, `wgraphPartRb3One` (300) then follows this null pointer. `wgraphPartRb` uses
  `vnumtax` of the user's graph as if it were its own numbering, so that parts of subgraphs are written out of bounds. `SCOTCH_graphPartOvl` does not initialise the partition: methods `z` and the empty strategy may do nothing and succeed.
  `wgraphPartEs` (wgraph_part_es.c:114–115) reads the domains of all parts, although the mapping may have fewer domains. `wgraphPartSt` (248–263) ignores the failure of the second strategy of a selection. Not proved: `int indvertnbr` (wgraph_part_rb.c:293) truncates numbers of vertices that have 64 bits; `wgraphZero` gives `memSet` a negative size for 0 parts.
* C61: `wgraphCheck` does not test that parts are separated, nor that the entries of the frontier array are distinct; it reads the part array at these entries without checking that they are vertices (wgraph_check.c:127–128).
* C62: in `kgraphMapSt` (kgraph_map_st.c:335–380), when one strategy of a choice fails, `b0` or `b1` only tells it as it would tell an imbalance; if the mapping of the other strategy is unbalanced, the state left by the failure may be kept,
  and success is reported (`C62_select_wrong`).
* C63: `mapCheck` accepts mappings without domains and, with `MAPPINGINCOMPLETE`, vertices of part -1 (mapping_check.c:104, 126–128); `kgraphCheck` then writes `comploadtab[parttax[vertnum]]` out of bounds (kgraph_check.c:198). Vertices all of whose
  external edges have no cost may be missing from the frontier array (kgraph_check.c:214) (`C63_check_wrong`).
* C64: `vmeshSeparateGr` never sets `grafdat.dwgttab` (vmesh_separate_gr.c:81–100): graph separation methods use whatever the stack holds as weights of the two parts, and the imbalance that is copied back may not be the difference of loads (`C64_separate_wrong`).
  `vmeshCheck` uses `parttax[node]` as an index of `edgecut` in the loop on elements (vmesh_check.c:119–121), before it is checked (line 147) (`C64_check_wrong`).
  Selections of `vmeshSeparateSt` ignore what their strategies return (vmesh_separate_st.c:266, 269) and report success on whatever a strategy that failed left; `vmeshSeparateGr` leaves the frontier array shifted when it fails (`C64_select_wrong`).
* C68: `hgraphCheck` does not check that arcs before `vnhdtax` lead to vertices that are not in the halo, nor that the other ones lead to the halo, nor that `enohnbr` and `vnlosum` are right (bounds only): it accepts a halo graph whose part without the halo is not a graph
  (`C68_check_wrong`).
* C70: `hmeshCheck` does not check that arcs of elements before `vehdtax` lead to nodes that are not in the halo, and the other ones to the halo, nor fields `vnohnbr` and `enohnbr` (`C70_check_wrong`).
* C71: `hmeshOrderBl` applies its strategy to the whole mesh again for each block that the strategy makes, so that it does not end with strategies that make several blocks (`C71_endless`), like `hgraphOrderBl` (C26).
* C66: `hmeshInducePart` sets `enohnbr` (hmesh_induce.c:324), which hmesh.h:91 says to be the number of non-halo edges, to the number of arcs of elements, including those to the halo (line 270 moves on to the end of all arcs), and of nodes of the part: the mesh that
  `hmeshMesh` builds from it has a wrong number of arcs, and is not consistent (`C66_arcs_wrong`). The effect is on strategy tests on numbers of edges, and on sizes of arrays, which are then too large.
* C65: in `hmeshMesh`, when nodes are numbered before elements, the second `memCpy` has a size of `hmshptr->m.vnodnbr - hmshptr->vnohnbr * sizeof (Gnum)` bytes (hmesh_mesh.c:130), where a pair of parentheses is missing: the size may be negative, hence huge
  when it is converted to `size_t` (`C65_nodes_first_wrong`).
* C59: `archDecoDomTerm` (arch_deco.c:467) sets the index of the domain in the array instead of its number, which is larger by one. Fixed vertices and mappings read from files go through this routine.
  (r) `archDecoArchLoad` (arch_deco.c:297) ignores the result of `archDecoArchBuild2`, and nothing checks that the given numbers form a decomposition.
* C58: `archSubArchBuild` (arch_sub.c:478) starts the coarsening with the number of kept processors instead of the number of processors of the original architecture; with a single processor other than the first one, the
  construction writes at `termtab[ANUMMAX]` (`C58_single_not`). The first two matchings of a sub-architecture only have singletons, and arch_sub.c:611–613 is dead code (r).
* C31: parameters `job=u,map=u` leave domains that were never written; when all fixed vertices have zero loads, `kgraphMapRbVfloMerge` may loop for ever; fixed values below -1 are
  counted as fixed but processed as free (library_graph_map.c:385); after a failure the mapping is used uninitialised; graphs with vertex numbers (induced ones) are mapped
  wrongly or out of bounds. (r) `kgraphMapRbVfloSplit` counts loads twice in its last step; fixed numbers that are too big are only detected in debug mode.
* C33: `gainTablNext` (gain.c:415) never looks into the last class; the macro `gainTablEmpty` is wrong (r).
* C35: dgraph_coarsen.c:798 passes the same cell for all threads.
* C36: `SCOTCH_contextOptionSetNum` (library_context.c:306) switches on the value instead of the option number.
* C37: `meshGraph` writes out of bounds when the number of arcs is wrong, which the checker accepts (C51). C38: `meshGraphDual` keeps the sum of loads but drops the loads; the threshold
  of METIS dual graphs is lowered for small elements. (r) metis_graph_dual.c:160–162 adjusts a non-standard base with the wrong sign.
* C39: the array of temporary blocks of `symbolFax` (symbol_fax.c:233–242) is sized `degree sum + contributions`, but the initial chain takes the diagonal block, the trailing block and up to
  `degree sum - 1` neighbours, and each contribution may add one: one block too few. A graph of 174 vertices makes it write after the end of the memory block (base values 0 and 1).
* C40: the start of the last level is not written for non-positive distances; diameters of heavy graphs overflow.
* C41: library_graph_map_io.c:152–159 loops over labels from 0 instead of the base value; files of empty graphs are refused.
* C42: `dgraphBuild2` tests the wrong cells for failed processes. (r) `dgraphBuild3` only translates the labels of the first `edgelocnbr` cells and silently keeps unknown labels.
* C43: a plan may tell a process to send an empty message to itself.
* C47: when a class has no routine to free its data, `archLoad` (arch.c:212–215) calls a null pointer if the data is wrong (`C47_bad_not`); a failed load of a sub-architecture follows a null pointer, and frees memory
  that has not been initialised; `archDistArchLoad` (arch_dist.c:82–100) loads into a null pointer (`C47_dist_not`); labels of tree leaves need not be a permutation (`C47_perm_not`); the load of
  a domain of a weighted complete graph is added to an uninitialised field (arch_cmpltw.c:496, `C47_dom_not`), and its first index may be negative (`C47_dom_oob`). (r) `archDeco2ArchLoad2` (arch_deco2.c:108–263) never sets
  `domnnbr`, so that no domain can be loaded afterwards and domains are not saved again. (r) Domains of complete graphs and hypercubes may be negative; dimensions of meshes may be zero or negative.
* C48: clones of empty non-compact graphs fail; isolated vertices may make the copy read out of bounds. C49: sizes of groups wrap around.
* C51: the number of arcs and the base value are not checked.
* C55: the tree of an ordering of a list of vertices gives the list and the rest as disconnected parts.
* (r) `archMeshXDomLoad` has no upper bound on coordinates. `archCmpltMatchMate` does not alternate passes.
