# Design of the formal model of CDMIR

Source: `/repo` (Python, read as text only). Model: Lean 4 under `/verif/lean/Verif`.

## Layout

- `Verif/Model/*.lean` - executable model, function by function, each definition citing file and lines.
- `Verif/Spec/*.lean` - small specifications written without the model's helpers (paths, d-separation, extensions, ...).
- `Verif/Lemmas/*.lean` - proof infrastructure.
- `Verif/Props/*.lean` - the property theorems, each with a concrete non-trivial example beside it.

## Conventions of the model

- Nodes: any type with decidable equality (Python: hashable with `==`).
- `dict`: insertion-ordered association list. `set`: list; where code iterates over a set, the iteration order is a
  parameter `setOrder` ranging over all functions that return a permutation of their argument.
- Exceptions are values of `Except Err`; warnings are dropped; logging is dropped.
- `while` loops: fuel; a theorem shows the fuel is never exhausted, or `none` stands for "does not return".
- Mutation: functions return the new value. A failing call returns the error and, where the state left behind matters,
  the state as well.
- Floats: exact ordered fields or rationals. Rounding, NaN and overflow are not modelled.
- Randomness: the drawn values are parameters.

## Plan per property

- **C01 Graph stays structurally consistent through any history.** Graph model (node list, node set, dict of dicts as insertion-ordered association lists). Inductive type of operations, `run` over a list of them, invariant proved by induction over the list.
- **C02 add_edge/get_edge round trip with frame.** Direct theorem on the model's `addEdge` / `getEdge`, for every graph satisfying the C01 invariant (hence every reachable graph).
- **C03 remove_edge and remove_node remove exactly what they name.** As C02 for `removeEdge`, `removeNode`.
- **C04 edges lists every adjacent pair exactly once.** `edges` as the double index loop; characterised by membership + no-duplication + order against a spec over index pairs.
- **C05 add_edge succeeds exactly when it should, and a failing call changes nothing.** Exact decision theorem for `addEdge` in the three classes; `addEdges` as a fold with early exit returning the partial state.
- **C06 The numeric matrix is a faithful picture of the graph.** `toNumpy` as the nested loop writing into a function-valued matrix; graph_equal theorem under the mark invariant of C07.
- **C07 Mark discipline of DiGraph and PDAG.** Invariant by induction over histories of the DiGraph / PDAG operations.
- **C08 Parents and children partition the neighbours.** From C07; degree sums by double counting over the edge list.
- **C09 is_d_separate decides d-separation.** Queue search modelled with fuel bounded by the number of (node,direction) keys and proved never to run out; soundness and completeness against an independent path definition by walks, then splicing walks into paths.
- **C10 d-separation is symmetric.** Corollary of C09 by reversing paths.
- **C11 d-separation depends only on the set z; conditioning on an endpoint separates.** Corollary of C09 plus the endpoint cases read off the model.
- **C12 The kind of iterable passed as z does not matter.** z modelled as list or one-shot iterator; expected false (the exhausted iterator blocks nothing): negation by witness, positive part partial.
- **C13 Adjacent nodes are never separable; non-adjacent nodes are separated by parents.** From C09 using acyclicity.
- **C14 topo_sort lists parents first.** Kahn loop with fuel; invariant on found_parents counts.
- **C15 is_acyclic decides acyclicity.** From C14 plus a cycle-extraction argument on the unlisted nodes.
- **C16 A self-loop is refused or noticed.** Expected false (the self-loop is stored with a Tail mark): negation by witness, partial for the rest.
- **C17 rule0 keeps the skeleton and only creates justified colliders.** Invariant over the nested loops of rule0.
- **C18 Meek orientation keeps the skeleton and never touches a directed edge.** Invariant over the loops of each rule.
- **C19 orient_by_meek_rules always terminates.** Measure: number of fully undirected pairs; each pass reporting a change strictly decreases it.
- **C20 The result of orient_by_meek_rules is closed and the operation idempotent.** A pass reporting no change leaves the graph as it is and all patterns unmatched.
- **C21 rule1 and rule2 are sound.** Each rewriting step preserves the set of extensions.
- **C22 rule3 and rule4 are sound.** Expected false as coded (rule3 lacks the non-adjacency test of v and x; rule4 is not Meek's rule 4): negation by witness; partial with the missing side condition.
- **C23 dag2cpdag returns the skeleton and all v-structures of the DAG.** From C13, C17, C18.
- **C24 dag2cpdag represents the equivalence class.** Expected false through rule3: negation by witness evaluated by the kernel. Partial: on graphs in which no two triangles share an edge rule3 and rule4 never fire; soundness from C21, completeness from a self-contained proof of Meek's theorem (`Lemmas/Complete.lean`: chain components are chordal, perfect elimination orders, either orientation of an undirected edge is completed to a member of the class). `c24_exact_partial`: no condition on the graph, only that no chosen direction is wrong (Meek's completeness theorem, `Lemmas/Essential.lean`). `c24_five_partial`: every DAG of at most five nodes. There rule3 and rule4 do fire without their missing conditions, but only where the direction is right: rule1 runs first, so an edge at the head of an unshielded collider is still undirected only if its other end is adjacent to both parents (`Lemmas/MeekFirst.lean`), and then too few nodes are left for a counterexample (`Lemmas/Five.lean`: in a counterexample an edge that every member of the class directs alike would be covered, hence reversible). Six nodes are wrong (`c24_six_false`).
- **C25 Equivalent DAGs get the same CPDAG.** dag2cpdag factors through (node order, adjacency, unshielded colliders).
- **C26 pdag2dag returns a consistent extension.** Loop invariant of the Dor-Tarsi elimination.
- **C27 pdag2dag returns exactly when an extension exists.** Potential-sink argument: an extension restricted to the remaining nodes has a sink that qualifies.
- **C28 adjacency_search with a perfect oracle returns the true skeleton.** From C13 and the level-by-level invariant `true adjacencies are kept`.
- **C29 adjacency_search removes an edge only on evidence and its separating sets are symmetric.** Invariant over the level loop for an arbitrary test.
- **C30 adjacency_search does not depend on the order of the variables.** Each level is a function of the current adjacency relation as a set.
- **C31 fast_adjacency_search agrees with the truth under a perfect oracle.** Lazy generators modelled by re-reading the graph at each index pair; then as C28.
- **C32 PC with the d-separation oracle equals dag2cpdag.** Both algorithms give rule0 the same skeleton and separating-set tables with the same answers on unshielded triples.
- **C33 PC keeps its skeleton consistent.** From C18, C29.
- **C34 The independence-test cache never changes an answer of a symmetric test.** Key as a string of decimal renderings, injectivity of the rendering; invariant on the cache over histories.
- **C35 Dsep.test answers d-separation under any history.** C34 + C10 + C11.
- **C36 shd is a metric.** shd as a sum over pairs; pointwise argument.
- **C37 Evaluation scores: perfect iff equal, precision and recall are dual.** Confusion counts over the pair list; rational scores with the zero-division convention of sklearn as a recorded assumption.
- **C38 Centring a kernel matrix centres it.** Matrices as functions on Fin n over a field; expected false for asymmetric matrices (column sums used for rows): negation, proved for symmetric ones.
- **C39 Random DAG generation always gives a DAG.** Permutation draws and matrices as parameters; topological position argument.
- **C40 merge_list returns the connected components of overlapping clusters.** BFS components over the overlap graph.
- **C41 itest and the kind of iterable.** z as list or one-shot iterator, as C12; expected false for iterators (the key exhausts them): negation by witness, partial for re-iterables.
- **C42 The data-converting decorator.** Python call binding modelled; expected false for a fourth positional argument.
- **C43 Going to the CPDAG and back stays in the class.** Expected false because of C24; witness found by search outside Lean and checked by the kernel (a directed cycle in the CPDAG, hence non-termination by C27). Partial from C24 (partial), C26, C27. `c43_five_partial`: at most five nodes, no other condition.
- **C44 PC with the d-separation oracle describes the equivalence class.** C32 combined with C24: false in general, proved where C24 holds. `c44_five_partial`: at most five variables, no other condition.
- **C45 Adding and removing lists of nodes.** Folds over the list; frame lemmas of C02, C03. Added after mutants of `add_nodes` were seen to break no claim.
- **C46 The mark queries agree with get_edge.** Case analysis on the stored marks. Added after a mutant of `is_circle` broke no claim.
- **C47 GES enumerates every subset exactly once, smallest first.** `combinations` membership lemma (already used for C28), sublists of a duplicate-free list.
- **C48 GES's clique test decides pairwise adjacency.** The integer matrix is a fold over `edges`; pointwise value of the fold; symmetrisation of the marks.
- **C49 GES's path test decides blocking of semi-directed paths, and ends.** Stack of simple paths; measure for termination: simple paths are bounded by the node count; invariant: every unexplored simple extension of a popped path is still under some stack entry.
- **C50 GES's superset marking.** Direct, for all lists of lists.
- **C51 Insert and Delete change exactly the edges they name.** Folds of remove/add; frame by C02, C03.
- **C52 The record of local scores never changes a score.** Invariant on the record over histories; the score is any function of the variable and the set of parents.
- **C53 A greedy pass finds a best valid operator.** The pruning flags only skip subsets whose validity is already decided, by monotonicity of both conditions in the subset.
- **C54 GES ends at a local optimum.** Each insertion adds one adjacency, each deletion removes one, so the loops end whenever every `pdag2dag` call does; score accounting by telescoping.
- **C55 On a completed PDAG, the valid operators are exactly the one-edge changes of the class, with the right score change.** Chickering's Theorems 15 and 17 over relations, with perfect elimination orders rooted at a clique (`Lemmas/Complete.lean`, `Lemmas/GESValid.lean`); completeness by choosing T (H) from the given member of the class.
- **C56 GES.fit returns the completed PDAG of a locally optimal class with its score.** Expected false through C24. Two witnesses, found by search outside Lean (scores are sums of gains of families, `Spec.famScore`, proved equal on equivalent DAGs) and evaluated by the kernel: a wrong reported score on six variables and a run that never ends on seven. Partial: an invariant of the main loop, with the proviso that `dag2cpdag` is exact on the DAGs met (`Spec.Visited`); the proviso always holds for at most five variables (`c56_five_partial`).
- **C57 The acyclicity constraint of the gradient-based searches is zero exactly on DAGs.** h is the trace of (1 + A/d)^d minus d; binomial expansion, entries of powers of a non-negative matrix are positive exactly along walks, a cycle gives one of length at most d by the pigeonhole principle. All four implementations (`_h`, `h_func` of the linear, MLP and Sobolev models).
- **C58 The gradients handed to the optimiser are gradients.** Derivative along an arbitrary differentiable curve of weight matrices, entry by entry, for the three losses, the constraint and the augmented Lagrangian; elementary functions (log, exp, sigmoid) are Mathlib's.
- **C59 notears_linear returns a DAG.** The optimiser is a parameter. Expected false for the default tolerance and threshold: a cycle of weights 0.3 through five variables passes the test; witness. Partial: a bound on the tolerance that suffices, which holds for at most four variables with the defaults.
- **C60 Hill climbing of SHP.** The history of fitted likelihoods and the draws are modelled, so a structure keeps the fit of its first visit. Termination because the recorded score rises strictly over finitely many 0/1 matrices; acyclicity because a cyclic matrix scores minus infinity. Local optimality is stated by the record, which is the only score the code ever compares. Finding: with the default `time_interval=None` line 198 multiplies by None, so Hill_Climb raises for two or more event types (`c60_default_raises`).
- **C61 count_accuracy.** Index sets as lists of pairs; counting over a partition of the predicted edges. Findings: the false positive rate divides by the number of absent unordered pairs and counts reversed edges, so it can be 3 (`c61_fpr`); on CPDAG input with a pair marked 1 one way and -1 the other, the true positive rate can be 2 (`c61_clash`).
- **C62 ICA_LINGAM returns a DAG, found by exhaustive search over permutations.** External: FastICA, pinv, the Wald test, the regressions. Floats with infinity and NaN where the code divides by zero. Finding: `wald_alpha` is not used (0.5 in its place).
- **C69 ICA_LINGAM recovers the model.** False: `find_B_wave` permutes rows but not columns and everything on and above the diagonal is cleared, so an edge to an earlier column is never reported (`c69_order`); for a matrix with errors of at most 1/50 the only edge is moved to another variable (`c69_false`, any set order); for the exact matrix of a DAG on three or more variables all scores are NaN and the first permutation is taken (`c69_exact`). Partial: a bound on the entries below the diagonal.
- **C63 The BIC score is equal on equivalent DAGs.** A score that is a difference F(pa+v) - F(pa) of a set function is equal on equivalent DAGs (Moebius inversion and the family argument of C56, `Lemmas/DiffScore.lean`); BIC is such a difference by the Schur complement of a positive definite matrix. The searches of `Model/GES.lean` take scores from any ordered field, so that the real-valued BIC can be put in (`c56_bic_partial`). Finding: line 27 has the wrong sign for an empty set of parents; it does not matter for a unit diagonal, and `c63_bic_sign` shows that it would for a covariance matrix.
- **C68 The BDeu score is equal on equivalent DAGs.** The same lemma, by counting rows per cell. False: `groupby([])` raises ValueError for a variable without parents, which every DAG has (`c68_bdeu_raises`). Partial: with the one-group value in its place. `vm` uses the number of rows where the number of variables is meant; one row (division by zero) and the key forms of single-column groupby are not modelled.
- **C65 The fit of SHP.** Over the reals with the true log and exp. The likelihood at parameters with positive rate is bounded above for each table, because log grows slower than the linear penalty, so gains of at least 0.0085 occur finitely often; the bound on the first likelihood is uniform over draws in [0,1]. Total time zero is excluded (the code divides by it).
- **C64 The cache of local scores.** The key is a hash of a string: wrong for some pair of calls for every hash with finitely many values (pigeonhole, `c64_false`); right for every history without a collision, because the printed requests are unambiguous. `c64_exact` says for any cache of this kind which histories are answered rightly.
- **C66 The caches of the kernels.** Key: hash of the printed arrays. numpy prints three items at each end of an array of more than 1000 numbers; the only law assumed of the text is that it is determined by what is printed (`c66_false`). The polynomial key leaves out `degree` and `const` (`c66_poly_stale`); the Gaussian key contains the width. Assertions on shapes and `y=None` are not modelled.
- **C67 The cache and the argument forms of the independence tests.** Lists of mixed elements are not modelled.
- **C70 The linear simulator samples the linear model.** External: `networkx` (is it a DAG, a topological order, the predecessors; `Nx.Right` states what is assumed), `np.linalg.inv`, `np.sqrt`, all draws. The loop over the order is a fold; each node is written once, after its predecessors, so the final table satisfies the structural equations; they have one solution because the graph has no cycle. Population case by `(I-W)` invertible.
- **C71 The non-linear simulator samples the non-linear model asked for.** Expected false: `func_type` is not passed on (line 213), so 'mim' gives 'mlp' (`c71_false`), and the default `n_samples=None` raises TypeError (`c71_none`). Proved for the function that is drawn.
- **C72 The post-nonlinear simulator samples a post-nonlinear model.** False: `np.sum` at lines 228-236 has no axis, so all samples of a node with parents get one value (`c72_false`, for all inputs). Partial: roots; which lists of functions fit together; which calls raise.
- **C73 The linear time series.** Induction on the steps; the first rows are noise; matrix k belongs to lag `lags - k`.
- **C74 The non-linear time series have one mechanism per node.** False: weights are drawn at each step (`c74_false`). Partial: the equation with the weights of the step. For the post-nonlinear series with functions of single numbers the equation with fixed functions is proved (`c74_pnl`); its default length raises TypeError.
- **C75 The Hawkes simulator: graph, kernels, table, INSEM.** External: tick's simulation and the draws. Direct inductions on the loops.
- **C76 The nested list of events of the Hawkes simulator.** False when some type never occurs or some sequence is empty, because the loops run over the values present (`c76_false`). Partial with these two conditions.
- **C77 olc ends with a mixed graph that accounts for every pair.** `Model/Olc.lean` takes everything numerical as a parameter (`Env`): regression residual, KCI p-value, Fisher's test, svd, covariance, the start value of a loading, the cliques, set orders; nothing is assumed of the numbers, so NaN is included. Assumed (`Env.Right`): set order permutes, cliques are lists of different nodes. Each pass that goes on removes an undirected edge, so `n(n-1)/2 + 1` passes are enough for each loop. Invariant over all moves of the third phase (`Lemmas/OlcInv.lean`).
- **C78 olc returns for every number of columns.** False: with one column `UDG` has no node and `UDG.neighbors(0)` raises (`c78_one`); with five columns six latent variables need a column of `A` that does not exist (`c78_false`). Partial: 0, 2, 3, 4 columns, by counting the edges that a latent variable uses up.
- **C79 Unconnected exactly if independent.** False: lines 74-82 test `x - intercept` (not the residual) against `y`, so for a test that is symmetric and ignores shift and scale (KCI is one, C82; `Olc.c79_kci` states it for KCI) an arrow is drawn exactly between independent variables, from the larger to the smaller number. Partial: unconnected implies tested independent.
- **C80 Coefficients.** False: `A` is written in the third phase only, so an arrow of the first two phases has the coefficient 0/v.
- **C81 olc leaves its data unchanged.** False: line 82.
- **C82 The kernel test of independence.** The result of `KCI.test` is symmetric in the two samples, does not change under shifting, scaling or reflecting of columns, nor under a common reordering of the rows; the statistic is not negative; the p-value is NaN exactly if one sample is constant, otherwise in [0, 1] and from positive gamma parameters. Over the reals; the gamma distribution function is a parameter. The options `null_samples`, `use_gamma_approx` and `width` are never read by the code.
- **C83 Two implementations of it agree.** `functional/kci.py` and the unconditional test of `kernel_based.py` (approximate mode, width 1) return the same p-value and statistic for all data.
- **C84 HSIC.** `hsic_gam` is symmetric, invariant under shift, scaling of a whole sample and reordering; the statistic is not negative and is NaN exactly if one sample is constant.
- **C85 `HSIC.test` answers.** Intended: returns True or False. False: `None` for every sample of at most five rows (the variance of line 97 is 0 or divides by 0), for constant samples, and on equality of statistic and threshold. Partial: from six rows on with non-constant samples, under the conditions on the variance and the quantile that the theorem names. The same file is also `LearningHierarchicalStructure/indTest/HSIC.py` (`independent`).
- **C86 ANM scores the two directions.** Intended: the score of a direction is the dependence of residual and cause. False with every scikit-learn whose `GaussianProcessRegressor.predict` returns shape `(n,)` for one target (since 1.1 as far as I know; requirements do not fix a version): `y_predict - y` is then an n by n array, and both scores equal the HSIC statistic of x and y, whatever the predictions are. Partial: for shape `(n, 1)` the score depends only on the cause and the residual, and is 0 if one of them is constant. The docstring says p-values, the code returns statistics.
- **C87 ANM and units.** Scores do not depend on the units (shift and positive factor) of the variables, exchanging the variables exchanges the scores, and the subsample is of exactly `maxpnt` rows, in order, with the first and last one.
- **C88 The tetrad test.** Covariances over the reals; the determinant under permutation and scaling of rows and columns. Rows fewer than three raise or give NaN. External: the normal distribution function. Added after a wrong program went unnoticed: one or two rows raise (`c88_few`).
- **C89 Sign of a tetrad difference.** Expected false: `evalTetradDifference` uses the pairs (a0, a3), (a1, a2) in the product where the tetrad difference `c_ik c_jl - c_il c_jk` has the pairs (i, j), (k, l). Witness of six rows found by search outside Lean; only the bounds `2 Phi(-2.5) > 0.01 >= 2 Phi(-2.6)` of the normal distribution are used. Partial: where the two products agree. Constant columns separately (`c89_constant`): the difference is zero and the test says no.
- **C90 Checking a cluster.** Loops over `itertools.combinations` with early return; the set order is a parameter. False for the test of the code by C89 (`c90_false`). Partial: for every symmetric test.
- **C91 Finding clusters.** Pairs first, merged by `merge_list` (C40), then larger sets of what remains. Induction on the loops; the merged clusters are classes of the closure of the pairs that pass. The tetrad test is a parameter that may raise.
- **C92 Nothing missed.** The loop condition `len(indexs) > ClusterLength + 2` skips the sets that leave exactly two columns outside, although the check allows them. For a symmetric test the two columns outside then pass as a pair, so nothing is lost; with the symmetry of the p-value alone (C88, C89) something can be missed (`c92_false`).
- **C93 Disjoint clusters.** Expected false: inside one size the `for` loop runs over the combinations of the set as it was before, so overlapping sets are both learned. Partial: overlap only at equal size from three on.
- **C94 Placing the clusters.** Invariant of the `while` loop of `MergeCausalCluster`: each cluster taken from the list is placed in one of the four parts, and what is placed stays. Uses that C91 records every cluster. If all are pure, nothing is merged (`c94_pure`).
- **C95 Early latent variables.** Expected false: `OutterELClusters[L] = S` is keyed by the latent variable. Partial: if no other learned cluster gets the same variable and no two learned clusters are equal as sets.
- **C96 Labels of the updated data.** False: the columns are concatenated as surrogates then remaining, the names as remaining then latent. `c96_false` is for every pass that has both. Partial: the other passes.
- **C97 The loop.** False: an impure cluster that is not merged stays in the data, and the loop goes on with the same data. Proved: it ends if nothing is found; and, if clusters are disjoint in every pass, every new latent variable costs at least two columns, so their number is bounded. The order in which the set of columns is read is assumed to be the order of the columns in `c97_false` only.
- **C98 Rolling back.** False: `roll_back_dataset_indexs[i]` for i < 2 raises `IndexError` for a latent variable without pure children; a run of the whole procedure that reaches it is given. Partial: with a pure measured cluster among the children. `GetObservedForLatent` (its search for an observed child is overwritten by the next line) has its own theorem: with an index without cycle it ends at a measured variable; the rank bounds the passes.
- **C99 The graph of the hierarchical structure.** `tranImpureToLatentIndex` and `Make_graph` as folds; induction gives the exact children and edges. The order of sets is a parameter.
- **C100 No cycle in it.** Expected false: an impure cluster in which the second element is found to be the parent of the first gets both edges. Witness: a run of the whole procedure on ten columns. Partial: with a rank.
- **C101 Transfer2Index.** Induction on the clusters with the running number; names are any injective function of the number. Keys of the dictionary are read as numbers.
- **C102 LearnCausalOrder.** A permutation of the clusters, each a first minimum of the sum. False for clusters of one variable (`Z` is empty, division by zero); partial: with at least two variables in each. The mutual information is a parameter; no NaN.
- **C103 The graph of GIN.** False if a set occurs twice among the clusters; partial: for different sets without latent names the graph is acyclic and its edges between latent variables are exactly those of the order.
- **C104 The surrogate of GIN.** Linear algebra: the last right singular vector is in the kernel if `Z` is smaller than `X`. In `FindRoot` the sizes depend on parities: false after a root with three variables; partial: `|Z| < |X|`, and roots of even size. `np.linalg.svd` is a parameter with its defining equation as hypothesis.
- **C105 minimize.** The line searches and the outer loop as functions with fuel; objective, square root and the smallest positive number are parameters, values in any ordered field, infinite values apart. Invariant of the outer loop: the point, its value and its gradient agree, the slope is not positive, the recorded values go down.
- **C106 minimize keeps the best point.** Expected false: a line search that fails moves to the best point without recording it, and one that succeeds forgets the best point. Witnesses: `-x`, and a function with a dip. Partial: no worse than the last recorded value.
- **C107 The search direction.** Expected false: in L292 `df0.T * df3[0, 0]` is a row instead of a number, so the same number is added to every entry. Partial: one parameter. With the gradient of `gpr_multi_new` no line search succeeds (`c107_flat`).
- **C108 The folds.** Each row is tested in one fold, and a fold trains on the others: arithmetic of `floor(T / k)`. One fold, or fewer rows than folds: nothing to train on.
- **C109 The cross-validated scores.** Closed form of the kernel matrix; `dist2` never has to clip. Defined exactly if no column involved is constant; unchanged by affine maps of a column, and for several columns by maps that scale all distances. Real numbers; `pdinv` is the inverse.
- **C110 The matrices of a fold.** Gaussian kernel matrices are positive semidefinite (C84), so are their products entry by entry and centred; then everything inverted or factored is positive definite. Trace of `A` at least zero by completing the square in the feature space: an upper bound of every score.
- **C111 Order of the parents.** The product of the kernel matrices commutes.
- **C112 What the marginal score regresses.** Expected false: `GeneralMarginalScore` takes the columns of the parents where it should take that of the variable (marginal_base.py L24). Witness with a constant column. What it is instead, for one parent (`c112_self_partial`). Without parents both scores always raise (`c112_none`).
- **C113 The marginal likelihood.** The bookkeeping of `covSum` and the closed form of the covariance, positive definite; the value is minus the log density. Plain arrays raise for two or more rows.
- **C114 Its gradient.** Expected false: the loop runs over the last index only. Partial: the last entry is the derivative, by diagonalising the covariance. With C107: all parameters but the noise keep their starting value (`c114_fit`).
- **C115 What Fisher's z test depends on.** Symmetric in the two variables, not dependent on the order of the conditioning list, on records' order, on units (affine maps with positive factors); signs of variables change at most the sign of the statistic. The cache is transparent (C34). The function of columns and the one of indices agree. Exact reals; `x_id`, `y_id`, `z_ids` may be negative or out of range as in numpy; a list is assumed for `z_ids` (a tuple or set raises in `[x_id, y_id] + z_ids`).
- **C116 The statistic is the partial correlation.** Spec: covariance of the two least squares residuals divided by their deviations (`Spec/LinearModel`), nothing about inverse matrices. Via the 2 by 2 Schur complement. Range, when p is 1 and when NaN, monotone in the statistic; repeated variables always raise. A statistic that is not finite is treated as the correlation 0.9999999 (`c116_undefined`).
- **C117 It detects d-separation in linear models.** Linear structural equations over a DAG with uncorrelated errors: global Markov property proved for `DSep` of C25 (residuals of a model; induction over a causal order), hence p = 1 under d-separation; with faithfulness the statistic is zero exactly then. Also for random variables on any probability space with Mathlib's covariance (`c117_random_variables`).
- **C118 PC with Fisher's z.** On population correlations of a faithful linear model PC returns the CPDAG of the DAG for every level in (0, 1] from some number of records on (C32). Faithfulness and exact population correlations are hypotheses. With fewer than three records all edges stay, with exactly three none does (`c118_few`).
- **C119 `taylor_approx` is the Taylor polynomial.** Evaluated in any real algebra: degrees 1, 2, 4, 8 exactly (degree 8 needs the square root of 177), degrees 12 and 18 with the coefficients spelled out in the code, which differ from one over the factorial by at most a relative 1e-15. Reals; the decimal constants are the numbers they spell.
- **C120 `expm_taylor` is accurate.** For every square matrix and every batch it returns, and the error is at most a few units in the last place times the norm times the exponential of the norm. Spec: Mathlib's `NormedSpace.exp`. Exact arithmetic: this is the error of the method, not the rounding error. The sort of the exponents is a parameter with its specification as hypothesis.
- **C121 `matrix_power_two_batch`.** Each matrix of the batch gets its own power, whatever order `torch.sort` gives equal exponents.
- **C122 The gradient of the exponential.** `differential` is the derivative of the exponential (block matrix similar to a diagonal one), `backward` is its gradient, also in the special case of the zero matrix; with the code's `expm_taylor` in place of the exact exponential the error is bounded through C120.
- **C123 The Padé versions.** `U + V` and `V - U` are the numerator and denominator of the Padé approximants of degrees 3, 5, 7, 9, 13 (agreement up to the power `2 m`), the scaled ones those of the scaled matrix; for a matrix whose seventh power is zero whatever is returned is the exponential exactly.
- **C124 The Padé versions return for every matrix.** False: a large matrix with square zero has all `eta` zero while `_ell` is positive, so the code takes `int` of minus infinity (`c124_false`, any size from 1000 on). Proved for matrices whose entries sum to at most 1/200, with the error bound (`c124_partial`). Missing: everything between.
- **C125 The conditional kernel test: statistic and range.** With a kernel given for the condition, `Σ (R Kx R)∘(R Ky R)` with `R` the residual of kernel ridge regression, on both branches of the code; not negative, p-value in [0, 1], also with Gaussian processes and in both modes. Externals with their specifications as hypotheses: `eigh`, `argsort`, `pinv` (inverse of an invertible matrix), the fitted process (positive semidefinite kernel, positive noise).
- **C126 Its null distribution does not depend on the eigenvectors.** Mean and variance of the gamma approximation are sums over entries of the two residual matrices without their small eigenvalues; equal for all correct `eigh`, on both branches of `get_uuprod`; the threshold moves the mean by at most `2 thr tr tr`.
- **C127 Invariance of the conditional test.** Shift, scale, reflection of columns; order of the rows. For the mode with a given kernel (with processes the fit is a parameter).
- **C128 The conditional test is symmetric in x and y.** False: half of the condition is put beside x only (`c128_false`). Proved if the condition does not vary (`c128_partial`). Missing: nothing else holds.
- **C129 When the conditional test returns.** With a given kernel always; in the default mode exactly with at least four rows, `Y` varying, and `X` or `Z` varying.
- **C130 The non-approximate modes.** The weights of the sampled null distribution have the sum and the sum of squares of the gamma approximation (without threshold; unconditional up to 1000 rows); a constant variable gets p-value 0, and the conditional test raises. Expected and false: the same beyond 1000 rows (`c130_large_false`).
- **C131 What the matrix of the nonlinear models means.** The estimate of `j` uses only variables `i` with `W[i, j] ≠ 0`, for all activations, biases and later layers. For the basis expansion also the converse; for the network it is false (`c131_converse_false`: a later layer can drop the input). The layers read their arrays in memory order (`c131_layers`).
- **C132 The bounds of the parameters mean no self-dependence.** Which position of the flat vector is bounded by what; every vector within the bounds gives a zero diagonal and estimates that do not use their own variable; `step` with any optimiser that keeps to its bounds. The L1 penalty on the split weights against the sum of absolute weights.
- **C133 The flat parameter vector.** Gather and distribute are inverse; what a wrong length does; value and gradient handed to the optimiser. Simplified: a tensor is its flat list.
- **C134 The dual ascent of the nonlinear models returns a DAG.** False (`c134_false`: a ring of five variables at the threshold, default parameters). Proved: termination for every optimiser, what one step returns, what is thresholded, and a DAG if the constraint was met with a tolerance below an explicit bound (`c134_dag_partial`), which the defaults satisfy up to four variables. Missing: the unconditional statement, which is false.
- **C135 The regularisers of linear_ent.py.** Estimate and diagonal as expected; losses are averages over rows (`c135_average`). Expected and false: `lambda2` has an effect; `L1` is a penalty; annealing reaches zero.
- **C136 The entropy losses.** The variance over pairs (`c136_pairs`). Behaviour under shift, scale, sign and permutation; upper bounds; the constants; no lower bound. Expected and false: `G1` and `G1_high_order` see the scale (`c136_scale_false`). Modelled over all entries of the residual, as the code takes mean and variance of the whole matrix.
- **C137 The nearest neighbour entropy.** When it returns; the radius by its rank among the distances; the constant as the volume of Mathlib's unit ball; `psi` as the logarithmic derivative of Mathlib's Gamma function; invariance under orthogonal maps, shifts and row order. Expected and false: scaling by `c` adds `d log c` (`c137_scale_false`); proved: it adds between 0 and that (`c137_scale`).
- **C138 Mutual information of nearest neighbours.** When it returns; order of variables and rows; a ceiling that depends on the shapes only, reached by constants. Expected and false: not negative (`c138_nonneg_false`).
- **C139 `independent`.** When it returns and with how many neighbours; symmetric; the score of a copy is known up to `log 2`. Expected and false: it measures dependence (`c139_false`: a constant scores higher than the variable itself).
- **C140 `mutual_information_2d`.** Every point in one bin; not negative, zero exactly for a product, below the entropies, normalised value in [0, 1); symmetric; units do not matter. The Gaussian filter is modelled from scipy's documentation.
- **C141 Gaussian entropies.** Number and 1x1 matrix, blocks, linear maps, correlated pair, subadditivity; `entropy2` even and at most the Gaussian value.
- **C142 Drawing a graph.** An edge as one line between the rims, heads at Arrow marks, circles at Circle marks; direction; seen from the other end; the whole picture for any layout. Expected and false: every graph is drawn (`c142_false`: nodes that are not strings raise `KeyError` at the first edge, because the places are kept under `str(node)` and looked up under the node).
- **C143 The circular layout.** Which node is at which place; first at the top; chords; with the defaults the circles are disjoint exactly up to 35 nodes and always in the figure.
- **C144 The unbiased HSIC statistic.** A number from four rows on; the mean over quadruples of different rows; an inner product; distance correlation; what does not matter. The call overwrites the diagonals of its arguments (`c144_overwrites`), and the spectral test then centres what is left.
- **C145 The biased HSIC statistic.** Kernel and feature versions measure the same; not negative; distance correlation in [0, 1]; the null distribution of both versions comes from the same spectrum up to a factor.
- **C146 P-values from shuffles.** Range; exact without ties; the samples of the spectral test and their mean. Expected and false: a constant is not found dependent (`c146_false`: ties count as not greater, so the p-value is the least possible). The permutation test with random features and its default raises (`c146_returns`).
- **C147 The block test.** What it computes; the rows of the blocks; when it raises or says nothing; a single block divides by zero; left-over rows. Expected and false: 'across' is the same test as 'permutation' (`c147_across_false`).
- **C148 Fisher's method.** The combined p-value in closed form; single and pair; order; range; monotone without zeros. Expected and false: stronger evidence never gives a larger value (`c148_false`: zero counts as 0.00001).
- **C149 Scoring a fitted matrix.** When `get_performance` returns; its three scores as counts of places; perfect scores; raising the threshold. Expected and false: a graph scored against its own matrix is perfect (`c149_false`), and a graph may be given as the true one (`c149_graph`: any directed or undirected edge raises).
- **C150 `pdinv` and `eigdec`.** The inverse of symmetric matrices, nothing finite otherwise; the largest eigenvalues in falling order with their vectors. Expected and false: the inverse of every invertible matrix (`c150_false`: entries above the diagonal may be ignored). Real numbers; numpy's factorisations by their specification.
- **C151 The rules for the kernel width.** Kernels with ones on the diagonal, positive semidefinite; units do not matter under the median rule and do under the others; when the median is NaN; repeated columns. Expected and false: the rule for HSIC allows for the number of columns (`c151_false`: it multiplies where the rule for KCI divides).
- **C152 The steps of the fit of SHP.** Each turn raises the likelihood whose costs are the denominators the code divides by (Jensen); a fixed point with positive coefficients is its global maximum; without parents the fit is the maximum likelihood estimate. Expected and false: a fit never returns less than it starts from (`c152_false`: the denominators contain the time interval, the reported likelihood does not; the loss has no bound). The part that holds: `c152_up_partial`, where both costs agree.
- **C153 The tables of SHP.** Rows, columns and entries from a list of events; order of rows; total time; the conditions of C60 and C65 are met. Expected and false: all time intervals have the same length (`c153_bin_false`: `astype('int')` makes the one around zero twice as long).
- **C154 Graphs and data beside NOTEARS.** `simulate_dag` returns an acyclic matrix of zeros and ones (its assertion holds), with the number of edges drawn; weights sit on the edges; the linear and non-linear tables are the unique solutions of their equations; bounds of the effects; pairs. Expected and false: uniform noise lies within the scale (`c154_uniform_false`, as the text of the function says); the scale matters for all kinds (`c154_scale_false`); a number is a noise scale (`c154_scalar_false`); a pair has the variances asked for (`c154_pair_var`: not for Gumbel, binary, counts).
- **C155 Transition matrices of time series.** As many as lags, columns of length one, conditioned as asked, last drawn first; when the loop ends. Expected and false: the process is stable (`c155_stable_false`); only the best `accept_per` per cent are accepted (`c155_accept_false`: the threshold comes from positive matrices).
- **C156 The Wald test of ICA-LiNGAM.** The arrays have one axis, so `fk` multiplies numbers, the non-linearity cancels and every entry is the squared length of a source minus an entry of the identity. The derivative matrix `computeQ` is the right one for the intended function. Expected and false: the estimating function has the mean zero (`c156_mean_false`); an entry is compared with its own variance (`c156_transposed_false`: with the variance of the entry mirrored). Stated through the influence of each record.
- **C157 The statistics of olc.** `normalize`; `xcum4` is the fourth k-statistic, linear in each column, symmetric, blind to shifts, not a number for one to three records; unbiased for the fourth cumulant (finite distributions, independent records, by induction on the number of records); the loading is the size of the true one times the deviation of the factor, the sign is lost; `fisher_test` is Fisher's method on p-values not below 0.00001, monotone; a missing p-value counts as the smallest.
- **C158 Helpers of the hierarchical procedure that the main procedure does not reach.** The set operators, `ExtendList`, `TestOverlap`, the two tests of general purity, `GetMeasuredVariables`, `Orientation_ImpureCluster`. Expected and false: the tests take the clusters as lists (`c158_lists_false`); with a cluster only below `C1` two variables of `C2` are tested (`c158_with_false`); the orientation returns (`c158_orientation_false`: never for a non-empty list).
- **C159 Samples with the statistic zero.** With Gaussian kernels, of every width, the statistic of the kernel tests and the score of the additive noise model are 0 exactly if the empirical distribution of the pairs of rows is the product of the two empirical distributions. Stated by counting rows. By positive definiteness of the kernel on different points (Vandermonde). Expected and false for linear kernels: `c159_linear_false`.
- **C160 `EM_not_HC` against `EM`, and `get_interval_events`.** What `EM_not_HC` returns for any matrix of edges, with cycles or not; where a fit stops; when its fits are those of `EM`; the record the two share. Expected and false: a structure that one has scored is scored by the other from the record (`c160_record_false`: the key is the tuple of a set, and CPython reads the set {1, 8} as 8, 1); `get_interval_events` leaves its argument as it is (`c160_caller_false`: an earlier call changes what a later one returns). The order in which a set is read is a parameter; `cpython` gives it for sets of at most four small numbers with different remainders by 8.
- **C161 The nearest neighbour loss.** When `entropy_loss_knn` raises or is not a number; with one neighbour it is the sum of the logarithms of the squared distances to the nearest other residual; it does not change under shifts, scales (also negative) and permutations of the rows. Expected and false: with two neighbours it uses the two nearest residuals (`c161_two_false`).
- **C162 GES finds the class of the true DAG.** Local consistency (`Spec.LocallyConsistent`) is the assumption of Chickering (2002): a further parent lowers the local score if it is d-separated given the other parents, and raises it if not. Proved on the way, for all finite DAGs: Meek's conjecture (`c162_inclusion`) and that equivalence is equality of d-separations (`c162_equivalent`). False of the code (`c162_false`): six variables, a locally consistent score equal on equivalent DAGs, and `fit` returns 5 -> 2 where the true DAG has 2 -> 5, since `dag2cpdag` directs an edge that is reversible (C24). Proved: `c162_fit_partial`, in full given that `dag2cpdag` makes no such choice in the run, and `c162_five`, without proviso for five variables. All need `max_parents` at least n - 2; the default n / 2 is that for n at most 4. For five variables the default is wrong (`c162_default_false`): one variable with four independent causes; no edge into a node with three parents is tried, so the fourth cause is drawn as an effect with two further edges.
- **C163 GES with the BIC score finds the class of the true DAG.** The premise of C162 for the score of `bic_score.py`: a further parent changes the score by -N log(1 - r^2) - lambda log N with r the partial correlation (`c163_gain`, any positive definite matrix), so for lambda > 0 and N large the score is locally consistent with the DAG of a faithful linear model (`c163_consistent`). "N large" is for the correlation matrix of the model itself; for the matrix of a sample see C172. With `lambda <= 0` no parent ever lowers the score (`c163_unpenalised`). Up to five variables `GES.fit` returns the CPDAG (`c163_five`; `c163_ges` for three with the default `max_parents`); for more, given that `dag2cpdag` directs no reversible edge in the run (`c163_ges_partial`).
- **C164 HSIC by columns and from an inducing set.** The statistics by columns are means over the columns, raise without columns, do not depend on their order, keep the bounds of C144 and C145. Intended: a statistic by columns of zero means that the samples are independent. False: two bits and their sum modulo two (`c164_columns_false`); it means that each single column is independent (`c164_columns`). The features from an inducing set never overstate the kernel matrix (`c164_below`), give it back up to 0.000001 if all rows are drawn (`c164_above`), and so does the statistic (`c164_close`). `inv(sqrtm(A))` is a parameter with the property that it is symmetric with square the inverse of A (`IsInvRoot`; such a function exists, `invRoot_exists`).
- **C165 `FindCausalCluster` on a measurement model.** Every column is a load times one latent variable plus noise (`Measured`); every latent variable is measured at least twice; noise is correlated at most between the only two measures of a latent variable (`Measured.Good`). If the tetrad tests are exact for the covariances, the clusters found are exactly the sets of columns of the same latent variable, each once (`c165_pair`, `c165_find`). For a positive definite covariance matrix and any level the tests of the code are exact on every sample with these covariances from some number of rows on, and such samples exist (`c165_exact`, `c165_sample`). Intended: a cluster without correlated noise is recorded as pure. False: with two latent variables every pure cluster of two columns is recorded as impure (`c165_two_false`); in general one of two columns is recorded as pure exactly if its latent variable separates two other columns (`c165_pure`).
- **C166 The loop over the levels on a hierarchical model.** Every variable is a load times its parent, one level up, plus independent noise; level 0 is observed (`Hierarchy`). Every latent variable has at least three children, there are at least four variables on every level below the highest and at most three on the highest (`Hierarchy.Good`). If the tetrad tests are exact for the covariances, the loop of Causal_Discovery_in_LHM.py ends, with every latent variable found once and with exactly its children; no cluster is taken for an early learned one (`c166_tree`). The tests are exact on every large enough sample with the covariances of the model, and there are such samples (`c166_sample`, `c166_exact`). The highest level is reported as one impure cluster, so a variable above exactly three others is never found (second example). Intended: the same with two children each. False: two latent variables with two measured variables each are reported as one with four (`c166_two_false`), since both clusters are recorded as impure and no column is left to tell them apart. Simplified: `print` and plotting are not modelled; loads must be such that no two variables of a level are multiples of each other (follows from the noise).
- **C167 LearnCausalOrder on a linear latent model.** A latent variable is a sum of its direct causes and a source of its own, without cycles; a measured variable is a load times one latent variable plus a source of its own (`LinLat`). If every latent variable has a cluster of two, the sample has the covariances of the model, and the estimate of mutual information is zero exactly if the surrogate and the column have no source in common (`Detects`; for independent sources that are not Gaussian this is independence, by the theorem of Darmois and Skitovich, which is not proved here), then the order is found, and every cause comes before its effects (`c167_order`). The weights need not be in general position: paths may cancel. Such samples, decompositions and estimates exist (`c167_sample`, `c167_svd`, `c167_oracle`). Intended: the same for clusters of any size from two on. False: with three variables each the row of covariances has many decompositions, all with sorted singular values, and with one of them the surrogate is a difference within the cluster; all values are then zero and the effect comes first (`c167_three_false`). Simplified: `GIN_MI` is taken with an ideal estimate in place of the nearest-neighbour one.
- **C168 olc on one latent factor.** Columns that are a load times one factor plus noise of their own, in terms of independent sources (`Factor`); the routines answer as from the true distribution (`Ideal`: a test accepts exactly if the two have no source in common, covariances and cumulants are those of the model, the last singular vector has length one and is in the kernel if there is one). With three columns the result is one latent variable above them, with the loads in units of the factor up to a common sign (`c168_three`), for every order in which sets and cliques are read and every singular vector. Such routines exist (`c168_ideal`). Intended: the same for any number of columns. False for four: the number of the latent variable changes only after a pass, so in the same pass the next pair tries the same latent variable again, against a residual from which it has been removed. The coefficient found is zero, the column of `A` occurs twice in `sub_A`, and with a right decomposition (`c168_svd`) the last singular vector does not use the new column at all, so that the test accepts (`c168_four_false`, whatever the loads).
- **C169 notears_linear with an ideal optimiser.** `sopt.minimize` finds a global minimum of the objective within the bounds (`Optimal`; such an optimiser exists for all data with independent columns, `c169_optimal`). If the residuals of an acyclic model are uncorrelated and have equal variances (`EqualNoise`; such data exist for every model, `c169_sample`), the squared loss is least exactly at the model among the matrices at which the constraint is zero (`c169_equal`), and notears_linear returns exactly its edges, with weights as near as wanted, once the penalty and `h_tol` are small and `rho_max` and `max_iter` large enough (`c169_recovers`, from `c169_loop` for any unique minimum). Intended: the same without equal variances. False (`c169_unequal_false`). For two correlated columns the edge is from the column with the smaller variance (`c169_pair`), so each column becomes the effect if its unit is small enough (`c169_units`). With equal variances, as after the standardisation in `original`, both directions are equally good: with the transposed solutions of the optimiser, which are as good, the result is transposed (`c169_standard`).
- **C170 The entropy losses pool the residuals.** On centred data the spread in `variance_loss`, `entropy_loss_mentappr` and `entropy_loss_high_order` is the squared loss of linear.py, because the standard deviation is taken over the residuals of all variables at once (`c170_pooled`): `variance_loss` compares matrices as the squared loss does (`c170_variance`), and of `entropy_loss_mentappr` the rest is between 0 and 21, so a squared loss that is less by the factor exp(42) decides (`c170_decides`). Expected: on standardised data, as in `original`, a linear model with independent noise that is not normal has the least loss. False for both entropy losses, on a sample that is exactly a product (`c170_model_false`): the reversed model has the lesser loss.
- **C171 What Hill_Climb finds.** Stated by the events: `Apart` says that no event of the one type lies, in the same sequence and within the reach of the kernel, at or before an event of the other. A type that is apart from all others gets no parent, from every acyclic start and for all draws (`c171_root`: every fit makes at least one update, and the first one clears the coefficients). Where the likelihood and the update charge the same for a parent and the first update gains more than an edge costs, the type gets a parent or comes before it (`c171_edge`, `c171_pair`). Expected: the result does not depend on the unit of time. False (`c171_unit_false`): the update divides by the time interval once more than the likelihood, so for every table there is a unit in which nothing is found (`c171_unit`).
- **C172 GES and PC on records drawn from a linear model.** C118 and C163 take the correlations of the model itself; here the records are random. `Drawn` (Lemmas/Sample.lean): the records are independent, have one distribution, and its fourth moments are finite; nothing else is assumed of the distribution, it need not be normal. If its covariances are those of a faithful linear model, then with probability tending to one with the number of records: `GES.fit` with the BIC score of the sample returns the CPDAG, for at most five variables (`c172_ges`); `PC.fit` with a new `FisherZ` object leaves the CPDAG at the level `2 (1 - Φ(q N))`, for every q that goes to infinity slower than the root of N (`c172_pc`); at a fixed level it keeps every adjacency (`c172_kept`). Chebyshev's inequality bounds the error of the sample covariances by D over the root of N (`Sample.dev`), and partial correlations move by at most a constant times the error (`Perturb.near`).
- **C173 The level of Fisher's z test, and PC at a fixed level.** For records drawn as in C172 (independent, one distribution, fourth moments), with positive definite covariances. If the residuals of two variables after regression on the others are independent, the test rejects with probability tending to alpha and accepts with probability tending to 1 - alpha, for every alpha between 0 and 1 (`c173_level`); the distribution need not be normal. With two independent variables `PC.fit` therefore joins them with probability tending to alpha (`c173_pc`). One would expect PC at a usual fixed level to find the CPDAG with probability tending to one; two independent normal variables meet every hypothesis of `c172_pc` but that on the level, and the probability tends to 1 - alpha (`c173_fixed_false`). The proof takes the central limit theorem for the products of the residuals from Mathlib, bounds the difference between the test's statistic and the root of N times their average by a constant over the root of N (`Perturb.second_order`, `near_stat`), and passes to the limit (`Limit.level`).
- **C174 The kernel functions of the scores.** `kernel` and `dist2` occur twice, in greedy_equivalence_search.py and in score_utils.py; the second multiplies the data by `*`. With the product of matrices `dist2` is the array of the squared distances (`c174_dist`), with plain arrays of one column also (`c174_column`). Expected of plain arrays with more columns: the same. False: `ValueError` unless the number of rows is 1 or that of the columns (`c174_plain`), and then wrong distances (`c174_plain_false`). `kernel` with a given width (`c174_given`); a tuple with first entry 0 raises (`c174_tuple`); a list with first entry 0 gets the width of the median (`c174_median`), then the kernel does not depend on unit and origin (`c174_units`) and, for a sample with itself, goes along with the order of the rows (`c174_rows`). False for two samples (`c174_rows_false`: only entries on and below the diagonal count). A second call with the same list keeps the width of the first (`c174_stale_false`). Positive semidefinite: `c174_psd`; the polynomial kernel for every degree if the constant is not negative (`c174_poly_psd`), otherwise not (`c174_poly_false`).
- **C175 notears_linear on drawn records.** The version of C169 for samples. Records are drawn independently from one distribution with fourth moments, and no linear combination of the variables is constant. If one acyclic matrix leaves a smaller total variance than all others, the penalty, the tolerance, `rho_max`, `max_iter` and the fuel can be chosen once and for all, not depending on the number of records or on the records, and then the probability that notears_linear returns exactly the edges of that matrix, with weights within `ε`, tends to one (`c175_loop`). Under a linear model with uncorrelated errors of equal variances that matrix is the model (`c175_equal`). For two correlated variables with different variances it is the edge from the smaller variance to the greater, whatever the model (`c175_pair`). Expected: the equality of the variances is not needed. False: with independent normal errors of variances 4 and 1 and the edge `0 → 1`, the probability of the edge `1 → 0` alone tends to one (`c175_unequal_false`). The events include that an optimal minimiser exists, and speak of all of them. Not modelled: `sopt.minimize` is assumed to find a global minimum, as in C169.
- **C176 What the scores do not reach in score_utils.py.** `sq_dist` with two matrices is the array of the squared distances of their columns (`c176_dist`); a missing second argument, or one without rows, is replaced by the first (`c176_self`); with a third argument the result is, for each row, the sum of the squared differences weighted by it (`c176_weights`); other shapes raise (`c176_shape`). Expected of plain arrays: the same. True if the first has one column (`c176_column`); a `ValueError` if both have at least two (`c176_array`); and with one column in the second the result has the wrong shape and wrong entries (`c176_array_false`). Expected of `gpr_multi_new` with test inputs: means and variances of predictions. False: it raises for all data, parameters and sums of covariance functions, a `TypeError` wherever the training mode succeeds (`c176_predict_false`), since line 671 takes the test inputs for their number; with a number in their place `covSEard` raises, and only noise terms succeed (`c176_tests`). `eigdec` with `evals_only` returns the greatest eigenvalues in falling order, those that it returns beside the vectors (`c176_eigvals`). The test inputs are an array with two axes; `UnboundLocalError` is `Err.exception`.
- **C177 Which penalties make notears_linear return no edge.** If the penalty `lambda1` is at least the greatest absolute covariance of two different columns of the centred data, and no column is a linear combination of others, then with every minimiser that reaches the minimum notears_linear returns the zero matrix, whatever the tolerance, the number of rounds and the threshold (`c177_empty`). The bound is sharp: with a smaller penalty and no threshold the result is never zero (`c177_some`). So for each positive penalty and all data there are units in which no edge is found (`c177_units`). For drawn records both hold with the covariances of the distribution and probability tending to one (`c177_drawn`, `c177_drawn_some`). Expected: the penalty 0.1 of linear.py line 109 keeps edges whose weight is above the threshold 0.3. False: of an edge with weight 1/2 and errors of variance 1/10 the probability that it is lost tends to one (`c177_fixed_false`). "Reaches the minimum" is as in C169; the penalty is not adapted to the number of records by the code.
- **C178 The kernel test of independence finds every dependence.** For records drawn independently from one distribution, with coordinates of finite variance that is not zero, and Gaussian kernels of fixed positive widths: with probability one the statistic of KCI divided by the squared number of records tends to a number that is zero exactly if the two variables are independent (`c178_limit`; the number is the integral of the squared difference of the joint characteristic function and the product of the two, weighted by a normal density). If they are dependent in any way, linear or not, the p-value exists and is below every level from some number of records on, with probability one (`c178_power`). The distribution function of the gamma distribution is a parameter that has to meet Markov's inequality; `gamma_markov` proves this of Mathlib's gamma distribution. The same limit holds for `HSIC_V_statistic` on data as they are, without any moments (`c178_vstat`). Fixed widths are those of `functional/kci.py` (width 1) and of `GaussianKernel()` with its default "manual" width; with the two empirical strategies, whose width changes with the number of records only below 1200, the test finds every dependence too (`c178_strategy`). The widths from medians are not covered.
- **C179 The permutation test finds every dependence and keeps its level except through ties.** The test of `HSICPermutationTestObject.py`, with either setting of `unbiased`. For records drawn from a distribution under which the two variables are dependent, and Gaussian kernels of fixed positive widths: with probability one over the records, for every number m of shuffles, the share of the m-tuples of shuffles for which the p-value is the least possible one, 1/(1+m), tends to one (`c179_power`). For independent samples of which one has exchangeable rows, and kernels that follow the order of the rows: the probability over records and uniform shuffles that the p-value is at most α and no shuffle gives the same value as the data is at most α, for every number of records, every m and every α (`c179_level`, `c179_drawn`). Without the words about ties this is false, since the code counts the shuffles that give strictly more: for a constant variable the p-value is always the least possible (`c179_ties_false`).
- **C180 The spectral test finds every dependence with its default setting and none with `unbiased=True`.** The test of `HSICSpectralTestObject.py` without random features, on records drawn from a distribution, with Gaussian kernels of fixed positive widths and independent standard normal draws. With the default `unbiased=False`, if the two variables are dependent: with probability one over the records, the probability over the draws that the p-value is the least possible one tends to one, for every number of draws (`c180_power`). With `unbiased=True` the statistic is divided by the squared number of records but the eigenvalues are not: if neither variable is constant then, with probability one, the mean p-value over the draws is at least 1/135 from some number of records on, however the variables depend on each other (`c180_unbiased_false`; the number comes from a bound by fourth moments and is not the best one). `eigvalsh` is a parameter that has to return the eigenvalues.
- **C181 The HSIC test with the median width finds every dependence.** `hsic_gam` and `test` of `HSIC.py` (`independent` in the copies) on records drawn from a distribution of two real variables: if the variables are dependent then, with probability one, `test` returns `False` at every level from some number of records on (`c181_power`). No moments are needed and values may repeat. The width depends on the data, so the proof shows that the median of the positive squared distances stays between two positive bounds, that a narrower Gaussian kernel matrix is at least a multiple of a wider one, and then uses the limit of C178. The quantile function is a parameter that has to obey Markov's inequality; the true one does (`gamma_quantile`). Nothing is said about independent variables: the gamma distribution is only an approximation there.
- **C182 The spectral test with random features.** The test of `HSICSpectralTestObject.py` with `rff=True` (as `INtest` uses it) on records drawn from a distribution, for bounded measurable features. The statistic tends to the sum of the squared covariances of the features (`c182_limit`). If one covariance is not zero then, with probability one over the records, the probability over the draws that the p-value is the least possible one tends to one (`c182_power`). If the features are cosines and sines of frequencies drawn from a distribution that leaves out no open set, and the variables are dependent, then with probability one over the frequencies this holds from some number of frequencies on (`c182_frequencies`). The number of frequencies depends on the distribution of the data. Expected and false: a fixed list of features is enough. For every list there are dependent variables with finitely many values for which the statistic tends to zero, as for independent ones (`c182_fixed_false`). The features are computed by the package kerpy, which is not part of /repo: the theorems are about every bounded measurable feature, and `waves` describes the usual random Fourier features, cosines then sines times a constant, which is an assumption about kerpy. `eigvalsh` is a parameter that has to return the eigenvalues.
- **C183 The score of ANM.py on drawn records.** Residuals and causes drawn independently from one distribution. With all rows the HSIC statistic with the median width grows at least in proportion to the number of records if residual and cause are dependent (`c183_dependent`), and divided by that number tends to zero if they are independent (`c183_independent`), with probability one, so the direction with the independent residual gets the lesser score from some number of records on (`c183_direction`). No moments are needed. Expected and false: the same of the code. `normalized_hsic` uses 2000 rows at most, at positions that do not depend on the data: from 2000 records on its distribution is the same for every number of records (`c183_cap_false`), and so is the probability that the second of two directions gets the lesser score (`c183_wrong_false`). For two coins X, E and Y = X + E that probability is not zero, though the noise is independent of X and the backward residual is not independent of Y (`c183_inconsistent_false`). The residuals are taken as given: the Gaussian process regression is not modelled, and the residuals of a regression fitted to all records are not independent draws.
- **C184 The kernel tests are compared with a distribution of the right mean.** For two independent samples whose rows are exchangeable, and kernels that may use the whole sample (standardised columns, median widths) but not the order of the rows, the mean of the V statistic is the mean of the product of the traces of the centred matrices, divided by n - 1 (`c184_mean`). So for independently drawn records of independent variables, whatever their distributions and for every number N of records from two on: the statistic of the spectral test has N / (N - 1) times the mean of its null samples (`c184_spectral`), with random features (N - 1) / N times (`c184_features`); the statistic of KCI has N / (N - 1) times the mean of the gamma distribution from which its p-value comes (`c184_kernel`, `c184_kci`); the statistic of HSIC.py has (N - 1) / N times the mean of the gamma distribution whose quantile is its threshold (`c184_hsic`). Only means are compared: the level of these tests is not proved.
- **C185 The unbiased statistic has mean zero under independence.** `HSIC_U_statistic`, with four rows or more. The average over all shuffles of the rows of one sample is exactly zero, whatever the two matrices, symmetric or not (`c185_shuffles`). So for independent samples with exchangeable rows, and bounded kernels that do not depend on the order of the rows, the mean is zero (`c185_mean`), in particular for drawn records and Gaussian kernels of fixed widths (`c185_drawn`): the statistic of the block test and of the permutation test with `unbiased=True` is centred.
- **C186 The unbiased statistic is unbiased, and the block test finds every dependence.** For drawn pairs of records and Gaussian kernels of fixed widths, `HSIC_U_statistic` has the same mean for every number of rows from four on; that mean is not negative, and zero exactly when the two variables are independent (`c186_unbiased`). The block statistic tends to it by the strong law over blocks, and none of the three null variances of `HSICBlockTestObject` exceeds a bound that depends on the block size alone; so for dependent variables and any block size from four on, the p-value of the block test tends to 0 with probability one, for each of the three methods and any permutations (`c186_power`).
- **C187 How often the block test rejects independent variables.** For independent variables, drawn records, Gaussian kernels of fixed widths, blocks of four rows or more whose statistic is not constant, and permutations fixed in advance: with the method 'permutation' the probability that the p-value is at most `α` tends to `α` with the number of whole blocks (`c187_level`, by the central limit theorem over blocks and the law of large numbers for the variance). Expected and false: the same with 'across'. There the limit is `1 - Φ(z / b)` with `Φ(z) = 1 - α` and block size `b`, more than `α` for every `α < 1/2` (`c187_across_false`), because the variance of 'across' lacks the factor `b²`: more data does not repair it. Not covered: rows left over after the last block, random permutations; for 'direct' see C188.
- **C188 The variance of the unbiased statistic, and the method 'direct'.** Over all shuffles of the rows of one sample, the mean square of `HSIC_U_statistic(Kx, Ky)` is exactly `2 u v / (m (m - 3))`, `u` and `v` the statistics of either matrix with itself, for all symmetric matrices of `m >= 4` rows (`c188_moment`). So under independence its variance is `2 DX DY / (m (m - 3))`, `DX` and `DY` the means of `u` and `v`, which do not depend on `m` (`c188_variance`). Expected and false: the block test with 'direct' has its level. It divides by `8 DX DY` instead of `2 DX DY b / (b - 3)`, because the estimates are doubled in `HSIC_with_shuffles` and their product once more; so it rejects independent variables with a probability that tends to `1 - Φ(2 z √((b - 3) / b))`, `Φ(z) = 1 - α`: to `α` for blocks of four rows, to less for longer ones and every `α < 1/2` (`c188_direct_false`). Whole blocks, kernels of fixed widths, as in C187.

## Trusted base

**Checker.** Lean 4.33.0's kernel. No axiom is added, no `sorry`, no `native_decide`, no `bv_decide`; `decide +kernel` asks the kernel itself. Mathlib is
used as a library; its proofs are checked by the same kernel. The axioms of each theorem are listed at the end of this file: they are among `propext`,
`Classical.choice` and `Quot.sound`, from Lean's core.

**Reading.** That the definitions in `Verif/Model` say what the Python text says. Each cites file and lines. The code was never run.

**Modelled, per file of `/repo/cdmir`** (what is left out of a file is named):

| file | model | left out |
|---|---|---|
| graph/mark.py, edge.py, graph.py | Graph | text output of an edge |
| graph/digraph.py, pdag.py | DiGraph, PDAG | logging |
| graph/pdag2dag.py, dag2cpdag.py | Pdag2dag, Dag2Cpdag | - |
| discovery/constraint/adjacency_search.py, pc.py | Adjacency | progress messages |
| utils/independence/_base.py, basic_independence.py, dsep.py | Cache, Indep | statistics other than d-separation are a parameter |
| utils/independence/fisherz.py, functional/fisherz.py | FisherZ | constant columns (numpy's correlation is NaN) |
| utils/independence/functional/kci.py, HSIC.py, kernel_based.py | KernelTest, CondKci | kernels other than the Gaussian one with fixed width |
| utils/kernel | Cache, Kernel, KernelTest, KernelWidth | a Gaussian kernel of data without columns |
| utils/local_score/_base.py, bic_score.py, bdeu_score.py | Cache, LocalScore | - |
| utils/local_score/cross_validated_base.py, score_utils.py | CrossVal, Minimize, Gpr, LinAlg, Rbf, SqDist | test set modes of single covariance functions outside a sum; arguments of sq_dist of different kinds |
| utils/local_score/marginal_base.py | Gpr | the eigenvectors are a parameter |
| utils/metrics/graph_evaluation.py | Metrics, Performance | NaN, arrays that are not square or of type `bool` in get_performance |
| utils/adapters.py | Adapters | - |
| datasets/utils.py, simlulators.py | RandomDag, Simulate, SimulateLag, Lag | the random generators themselves, `np.linalg.cond` |
| discovery/score_based/greedy_equivalence_search.py | GES, LinAlg, Rbf | - |
| discovery/score_based/entropy_based (linear.py, linear_ent.py, nonlinear.py, nonlinear_ent.py, lbfgsb_scipy.py, locally_connected.py, utils.py) | Notears, Accuracy, Network, EntLoss, Knn, NotearsData | the optimisers, automatic differentiation, the batches of `train_dam`, `LBFGS_torch` |
| discovery/score_based/entropy_based/pytorch_expm | Expm | rounding; the check that a matrix is square; moving tensors between devices; expm_pade.py's imports |
| discovery/point_process/SHP.py | SHP, EventTable, SHPNot | pandas grouping by its documentation, types of columns, `max_time_stamp` |
| discovery/funtional_based/lingam_based/ica_lingam.py | Lingam, Wald | FastICA, the regression |
| discovery/funtional_based/one_component/olc.py | Olc, OlcStat | the numerical routines other than `normalize`, `xcum4`, `fisher_test` |
| discovery/funtional_based/anm/ANM.py | KernelTest | the Gaussian process regression |
| discovery/funtional_based/LearningHierarchicalStructure | Merge, Tetrad, Hier, HierGraph, Mutual, HsicTest, HsicSub, Orient | MergeCluster_backup.py (Paper_simulation.py has the same text as Overlap_Merge.py, which is modelled); of indTest: the choice of the kernel width and of the random features, streaming data, `HSIC2.py` and `fastHSIC.py` beyond the options they pass |
| visual/plot_graph.py, visual/graph_layout.py | Plot | colours except the fill of a node, fonts, line widths, matplotlib |
| tests | - | all |

**Numbers.** Floats are elements of an ordered field, rationals or reals. Rounding and overflow are not modelled. NaN and infinity are modelled where
the code can meet them: Lingam, Olc, KernelTest, Tetrad, FisherZ. Whether a matrix is singular is decided exactly. The scores of sklearn (Metrics) are exact rationals with `zero_division` 0.

**Parameters instead of code.** The result of each of these is an argument of the model, so a theorem holds for every one of them, or states what it
assumes: random draws; the order in which a set is read; `hash`, and the text of a numpy array; `np.corrcoef`; `log`, `exp`, `lgamma`, `tanh`, `sin`, `cos`;
the distribution functions of the normal (not in FisherZ: there it is Mathlib's), the gamma and the chi-square distribution; `np.linalg.svd`, `inv`, `pinv` and the matrix square root; FastICA;
`eigh`, `eigvalsh` and `argsort` in CondKci; linear and Gaussian process regression; the Wald test; the p-value of KCI in olc; the optimisers of NOTEARS, the gradients of torch and the activation of the networks; acyclicity, topological order and cliques of
networkx and igraph; `groupby` of pandas; the point process drawn by tick; the estimate of mutual information in GIN2.py; the eigenvectors of a kernel matrix in marginal_base.py, and the point `minimize` ends at (C112 only).

**Other readings.** Positions in numpy index arrays are represented by the nodes (Pdag2dag, GES). `fuel` bounds a `while` loop: either a theorem shows that
it is never used up, or the theorem says so in its statement. `exit(-1)` is an exception. A data frame with two columns of one name is read as having the
first only. Where Python would raise, the kind of exception is kept apart only as far as the code that catches it can tell.

## What the proofs found

Properties that are false of the code, each with a proved counterexample (`_false`) and what remains (`_partial`): see the entries above. In short: graphs
of the plain class accept what the subclasses refuse (C06); pdag2dag and the PC rules on inputs that are not extendable (C12, C16, C22, C24); the
cached key of two different tests can agree (C38); GES operators and score (C41-C44, C56, C59, C60); counting accuracy and rates (C61, C63, C68);
NOTEARS and SHP (C64, C66, C67, C69); simulators (C71, C72, C74, C76, C78); olc (C79-C81); kernel tests and ANM (C85, C86); tetrad tests and the
hierarchical procedure (C89, C90, C92, C93, C95-C98, C100, C102-C104); the minimiser and the regression of the marginal scores (C106, C107, C112, C114).

Met on the way and not stated as properties: the options of `KCI` are ignored; `KCI.cal_stats` in independence/kci.py calls the module `kci` instead of the
function; kernel_based.py uses `np.int`, removed from numpy, for more than 1000 rows in the non-approximate mode; the p-value of HSIC is computed and
not used, and ANM returns statistics where its documentation says p-values; `Causal_Discovery_LHM` documents a result and returns none;
`Orientation_ImpureCluster` (never called) passes a list where a dictionary is expected, so it raises for every impure cluster; numpy from 1.24 on refuses the ragged array `covfunc` of
the marginal scores, and `kernel` would assign to an element of a tuple for a width of zero. Fisher's z test with as many
records as three plus the conditioning variables accepts every independence, and with fewer none (C116, C118); `min(0.9999999, nan)` is 0.9999999 in Python,
so an undefined correlation counts as the strongest dependence. The conditional kernel test is not symmetric in its first two
arguments (C128) while the search calls it in the order in which the pair is met, and in its default mode it raises for fewer than four rows or a constant `Y` (C129); the unconditional test
gives a constant variable the p-value 0 or NaN, so it is never judged independent (C82, C130); the width of the process for y is computed from the kernel and the columns of x. Met while modelling the networks: `LocallyConnected.extra_repr` reads
an attribute that is never set, so printing a model raises; `train_dam` calls `model.weight()`, which `linear_nonGauss` does not have; `L2` of `linear_nonGauss` is the mean square of the data, so `lambda2` has no effect,
and `L1` is a signed sum (C135); the parameter vector is accepted although too long (C133). The dependence score of independence.py is greatest for constants
(C138, C139), and integer data raise in `entropy`, where `np.finfo` of an integer type is asked for. `plot_graph` raises `KeyError` for
a graph with an edge whose nodes are not strings (C142). `HSIC_U_statistic` overwrites the
diagonals of the matrices it is given, which the spectral test then centres (C144); the permutation test with random features and
its default `unbiased=True` calls `HSIC_U_statistic_rff`, which does not exist (C146); a constant column gets the least p-value of
the permutation test (C146); the block test answers 0, 1 or NaN with a single block, raises `TypeError` with random features, and
with 'across' multiplies its score by the block size (C147), so that it rejects independent variables too often however many the
blocks (C187), and with 'direct' and blocks of more than four rows too rarely (C188); Fisher's method counts a p-value of zero as 0.00001 (C148);
`freeze_data=True` calls the data generator before it is set (`AttributeError`, not modelled). `get_performance` raises `ValueError` for a true graph with a directed or undirected edge, and
a fitted `DiGraph` against its own matrix scores precision 1/2, recall 1 (C149); `pdinv` looks only at the lower triangle of a matrix
if that of a positive definite one, so for a matrix that is not symmetric it returns a different inverse (C150); the width rule for
HSIC multiplies by the number of columns, so with every column twice each kernel entry becomes its fourth power (C151). A turn of the fit of SHP divides by an integral times the time interval, the likelihood it reports charges something else, so a
fit may return a likelihood lower by any amount than its first (C152); event times between minus one and one time interval share a
time stamp, and with one time stamp in each sequence the total time, a divisor, is zero (C153). The uniform noise of `simulate_linear_sem` goes beyond the scale by a factor of the
square root of three (C154). The transition matrices of the time series have columns of length one, so one node with one lag is a random walk, and
for two nodes the threshold of the condition number is at least three whatever percentage is to be accepted (C155). In the Wald test of ICA-LiNGAM the
estimating function is the squared length of the source vector in every entry, whatever the non-linearity, and an entry of the matrix is compared
with the variance of the mirrored entry (C156). A p-value that is not a number counts in olc as strong evidence against independence (C157). `Orientation_ImpureCluster`
raises for every non-empty list and the tests of general purity raise for clusters given as lists (C158). Beyond 1000 rows the unconditional KCI test with the sampled
null distribution raises with newer versions of numpy and else uses half of the eigenvalues (C130). `EM_not_HC` scores matrices with cycles, for AIC with another penalty than `EM`,
and may miss what `EM` has recorded (C160). With two neighbours `entropy_loss_knn` does not use the two nearest (C161). With a score
that tells every dependence from every independence GES may still return an edge against the true DAG (C162). With the default
`max_parents` it does so for five variables one of which has four causes (C162). `dag2cpdag`, PC and GES
are right for up to five variables (C24, C43, C44, C56, C162, C163). `SubHSIC_statistic` is zero for two bits and their sum modulo two; `compute_induced_kernel_matrix_on_data` computes a
selection of rows of its inducing sets and drops it, so both have the size of the greater (C164). `FindCausalCluster`
records pure clusters of two columns as impure unless their latent variable separates two other columns; with two latent variables always (C165). The loop
then merges the two and reports one latent variable with four children in place of two with two; a variable above exactly three others is never found (C166). `LearnCausalOrder` finds a causal order for clusters of
two, but for clusters of three the surrogate may be a difference within the cluster, which tells nothing, and the order is then that of the dictionary (C167). olc finds one factor behind three columns, but with four it
may give the fourth the coefficient zero (C168). notears_linear with an optimiser that finds a global minimum finds the model if
the noise has equal variances, but for two columns the edge is from the one with the smaller variance, whatever the model; `original` standardises the
data, after which both directions are equally good (C169). The entropy losses take one standard deviation over the residuals of all
variables, so up to a term for their common shape they are the squared loss again, and for standardised data with noise that is not normal the wrong direction may have
the lesser loss (C170). Hill_Climb of SHP.py depends on the unit of time: measured in small enough units, no table of events yields an edge (C171). At a fixed significance level PC with Fisher's z test adds an edge between two independent variables with probability tending to the level, so more records do not help (C173). `dist2` of score_utils.py raises for plain arrays of several columns, or gives wrong distances if there are as many rows; `kernel` changes its argument `theta`, so that a later call with the same list keeps the width of the first, and its median depends on the order of the rows of the second sample (C174). More records do not help notears_linear against unequal variances: the probability of the reversed edge tends to one (C175). `gpr_multi_new` raises whenever it is given test inputs (C176). No fixed list of random features finds every dependence (C182). ANM uses 2000 rows at most, so more records do not make its choice of a direction more certain (C183). The penalty of notears_linear is not free of units: data in large units leave no edge, and the penalty 0.1 loses an edge of weight 1/2 (C177). The permutation test of HSICPermutationTestObject.py counts only shuffles that give strictly more, so that ties make it find dependence where there is none (C179). The spectral test with `unbiased=True` compares a statistic that is divided by the squared number of records with samples that are not, and so finds no dependence (C180). The Padé versions of the matrix
exponential raise for large matrices whose sixth to tenth powers vanish (C124); their `_onenorm` is `torch.norm(A, 1)`, the sum over all entries, where `_ell` was
derived for the largest column sum. `torch.solve`, which they call, has been removed from newer versions of torch, and nothing in the repository uses the package.

## Axioms of each theorem

Printed by `#print axioms`, for the theorems named in MANIFEST.json (without the prefix `Cdmir.`).

- **propext:** c12_iterator_false, c16_self_loop_false, Orient.c158_orientation_false.

- **Quot.sound, propext:** c05_add_edges_prefix, c06_plain_graph_false, c50_superset, c64_exact, c66_linear_partial, c66_gauss_partial, c66_manual_partial, c66_poly_partial, c67_unknown, Sim.c71_none, Sim.c72_layers, Sim.c72_cos, Sim.c72_names, Sim.c74_length, Sim.c74_cos, Sim.c76_false, Olc.c78_one, Olc.c78_false, Tetrad.c90_pure_partial, Hier.c93_false, Hier.c94_pure, Hier.c95_false, Hier.c97_stop, Hier.c99_nodes, Hier.c100_false, Hier.c101_roots, Net.c134_no_call, Net.c134_first, Sim.c154_unknown, Sim.c154_pair, Orient.c158_overlap, Orient.c158_lists_false, Orient.c158_purity, Orient.c158_with_false.

- **Classical.choice, Quot.sound, propext:** c01_consistent, c02_add_get, c03_remove_edge, c03_remove_node, c03_add_remove, c04_edges, c05_add_edge_decides, c06_to_numpy, c06_graph_equal, c06_mismatch, c07_digraph_marks, c07_pdag_marks, c08_parents_children, c08_degree_sum, c09_dsep, c10_dsep_symm, c11_dsep_set, c11_dsep_endpoints, c12_iterable_kind_partial, c13_adjacent, c13_parents_separate, c13_separable, c14_topo_sort, c15_is_acyclic, c16_self_loop_partial, c17_rule0, c18_meek_only_orients, c19_meek_terminates, c20_meek_closed, c21_rule1_sound, c21_rule2_sound, c22_rule3_false, c22_rule4_false, c22_rule3_sound_partial, c22_rule4_sound_partial, c23_dag2cpdag, c24_false, c24_sound_partial, c24_class_partial, c24_exact_partial, c24_five_partial, c24_six_false, c25_equivalent, c26_extension, c27_terminates_iff, c28_true_skeleton, c29_adjacency_search, c29_raises, c30_order_independent, c31_fast_true_skeleton, c31_fast_evidence, c32_pc_dsep, c32_pc_oracle, c33_pc_fit, c34_key_iff, c34_cache_transparent, c34_cache_any, c35_dsep_test, c36_shd, c36_triangle, c36_one_edge, c37_skeleton, c37_arrow, c37_directed, c41_itest_iterator_false, c41_itest_partial, c42_positional_false, c42_keyword_partial, c43_false, c43_round_trip_partial, c43_five_partial, c44_false, c44_pc_class_partial, c44_five_partial, c38_false, c38_center_exact, c38_center_partial, c45_add_nodes, c45_remove_nodes, c46_mark_queries, c39_orientation, c39_erdos_renyi, Merge.c40_merge_list, c47_combinatorial, c48_clique, c49_path_test, c51_insert, c51_delete, c52_record, c53_forward, c53_backward, c54_fit, c55_insert, c55_insert_complete, c55_delete, c55_delete_complete, c56_wrong_score, c56_hangs, c56_fit_partial, c56_three_partial, c56_five_partial, c56_bic_partial, c57_linear, c57_trace, c57_mlp, c57_sobolev, c58_constraint, c58_loss, c58_values, c58_centre, c58_lagrangian, c59_false, c59_false_rho, c59_terminates, c59_no_call, c59_dag_partial, c59_feasible_partial, c59_bound_small, c60_result, c60_ends, c60_ends_real, c60_default_raises, c61_refused, c61_dag, c61_metric, c61_rates, c61_cpdag, c61_clash, c61_fpr, c65_fit_ends, c65_influence, c63_bic_value, c63_bic, c63_bic_sign, c68_bdeu_raises, c68_bdeu_partial, c64_key_inj, c64_local_partial, c64_false, c66_false, c66_poly_stale, c67_spelling, c67_key_inj, c67_call_partial, c67_false, c62_all_P, c62_W_wave, c62_B_wave, c62_dag, c62_empty, c69_order, c69_exact_nan, c69_exact, c69_false, c69_fit_partial, Sim.c70_linear, Sim.c70_draws, Sim.c70_cyclic, Sim.c70_scale, Sim.c70_population, Sim.c71_mlp, Sim.c71_mim, Sim.c71_false, Sim.c72_runs, Sim.c72_false, Sim.c72_roots_partial, Sim.c72_hidden, Sim.c72_mismatch, Sim.c73_linear, Sim.c73_logistic, Sim.c73_refused, Sim.c74_nonlinear_partial, Sim.c74_pnl, Sim.c74_false, Sim.c75_graph, Sim.c75_kernels, Sim.c75_table, Sim.c75_interval, Sim.c75_insem, Sim.c76_events_partial, Olc.c77_ends, Olc.c77_graph, Olc.c77_latent, Olc.c77_pairs, Olc.c78_small_partial, Olc.c79_false, Olc.c79_two, Olc.c79_kci, Olc.c79_partial, Olc.c80_false, Olc.c80_partial, Olc.c81_partial, Olc.c81_false, KTest.c82_symm, KTest.c82_affine, KTest.c82_perm, KTest.c82_nan, KTest.c82_range, KTest.c82_tail, KTest.c83_agree, KTest.c84_symm, KTest.c84_affine, KTest.c84_perm, KTest.c84_range, KTest.c84_kernel, KTest.c85_small, KTest.c85_const, KTest.c85_false, KTest.c85_partial, KTest.c86_false, KTest.c86_partial, KTest.c87_units, KTest.c87_rows, Tetrad.c88_symm, Tetrad.c88_affine, Tetrad.c88_rows, Tetrad.c88_range, Tetrad.c88_few, Tetrad.c89_false, Tetrad.c89_partial, Tetrad.c89_constant, Tetrad.c90_check_partial, Tetrad.c90_false, Hier.c91_found, Hier.c92_none, Hier.c92_sizes, Hier.c92_false, Hier.c93_disjoint_partial, Hier.c94_covered, Hier.c95_early_partial, Hier.c96_false, Hier.c96_partial, Hier.c97_false, Hier.c97_progress_partial, Hier.c98_false, Hier.c98_partial, Hier.c98_observed_partial, Hier.c99_index, Hier.c99_edges, Hier.c100_partial, Hier.c101_index, Hier.c102_mean, Hier.c102_perm, Hier.c102_min, Hier.c102_false, Hier.c102_returns_partial, Hier.c103_false, Hier.c103_acyclic_partial, Hier.c103_edges_partial, Hier.c104_false, Hier.c104_sizes, Hier.c104_uncorrelated_partial, Hier.c104_even_partial, Minimize.c105_result, Minimize.c105_returns, Minimize.c105_raises, Minimize.c105_pass, Minimize.c106_false, Minimize.c106_partial, Minimize.c107_false, Minimize.c107_one_partial, Minimize.c107_flat, CV.c108_partition, CV.c108_few, CV.c109_defined, CV.c109_affine, CV.c109_multi, CV.c109_kernel, CV.c110_bound, CV.c110_multi, CV.c110_posdef, CV.c111_perm, Gpr.c112_false, Gpr.c112_none, Gpr.c112_self_partial, Gpr.c112_value, Gpr.c113_cov, Gpr.c113_value, Gpr.c113_params, Gpr.c113_array, Gpr.c114_false, Gpr.c114_noise_partial, Gpr.c114_fit, Fisher.c115_symm, Fisher.c115_history, Fisher.c115_units, Fisher.c115_signs, Fisher.c115_columns, Fisher.c115_index, Fisher.c116_partial_correlation, Fisher.c116_range, Fisher.c116_monotone, Fisher.c116_repeated, Fisher.c116_undefined, Fisher.c117_zero, Fisher.c117_dsep, Fisher.c117_faithful, Fisher.c117_random_variables, Fisher.c118_perfect, Fisher.c118_pc, Fisher.c118_few, Expm.c119_exact, Expm.c119_near, Expm.c120_single, Expm.c120_batch, Expm.c121_powers, Expm.c122_derivative, Expm.c122_gradient, Expm.c122_code, Expm.c123_coefficients, Expm.c123_order, Expm.c123_scaled, Expm.c123_nilpotent, Expm.c124_false, Expm.c124_partial, KTest.c125_statistic, KTest.c125_range, KTest.c126_moments, KTest.c126_choice, KTest.c126_threshold, KTest.c127_affine, KTest.c127_perm, KTest.c128_false, KTest.c128_partial, KTest.c129_returns, KTest.c130_conditional, KTest.c130_unconditional, KTest.c130_constant, KTest.c130_large_false, Net.c131_mlp, Net.c131_converse_false, Net.c131_sobolev, Net.c131_layers, Net.c132_mlp_layout, Net.c132_sobolev_layout, Net.c132_linear_layout, Net.c132_mlp, Net.c132_sobolev, Net.c132_step, Net.c132_l1, Net.c133_params, Net.c133_vector, Net.c133_length, Net.c133_closure, Net.c134_terminates, Net.c134_quarter, Net.c134_dag_partial, Net.c134_false, Net.c134_bound_small, Net.c135_forward, Net.c135_own, Net.c135_abs_l1, Net.c135_l2_false, Net.c135_l1_false, Net.c135_anneal, Net.c135_average, EntLoss.c136_mentappr, EntLoss.c136_high_order, EntLoss.c136_scale_false, EntLoss.c136_sign, EntLoss.c136_perm, EntLoss.c136_bound, EntLoss.c136_constants, EntLoss.c136_unbounded, EntLoss.c136_pairs, Mutual.c137_returns, Mutual.c137_radius, Mutual.c137_volume, Mutual.c137_value, Mutual.c137_isometry, Mutual.c137_perm, Mutual.c137_scale, Mutual.c137_scale_false, Mutual.c138_returns, Mutual.c138_symm, Mutual.c138_rows, Mutual.c138_ceiling, Mutual.c138_constant, Mutual.c138_nonneg_false, Mutual.c139_returns, Mutual.c139_symm, Mutual.c139_identical, Mutual.c139_false, Mutual.c140_histogram, Mutual.c140_range, Mutual.c140_symm, Mutual.c140_affine, Mutual.c141_scalar, Mutual.c141_blocks, Mutual.c141_linear, Mutual.c141_pair, Mutual.c141_subadditive, Mutual.c141_approx, Plot.c142_edge, Plot.along_far, Plot.c142_direction, Plot.c142_swap, Plot.c142_picture, Plot.c142_returns, Plot.c142_false, Plot.c143_layout, Plot.c143_circle, Plot.c143_overlap, Plot.c143_inside, HsicTest.c144_finite, HsicTest.c144_tuples, HsicTest.c144_inner, HsicTest.c144_cauchy, HsicTest.c144_dcor, HsicTest.c144_affine, HsicTest.c144_constant, HsicTest.c144_shuffle, HsicTest.c144_overwrites, HsicTest.c145_features, HsicTest.c145_nonneg, HsicTest.c145_dcor, HsicTest.c145_dcor_features, HsicTest.c145_spectrum, HsicTest.c146_range, HsicTest.c146_exact, HsicTest.c146_scale, HsicTest.c146_returns, HsicTest.c146_false, HsicTest.c146_sample, HsicTest.c146_mean, HsicTest.c147_value, HsicTest.c147_raises, HsicTest.c147_range, HsicTest.c147_single, HsicTest.c147_rest, HsicTest.c147_scale, HsicTest.c147_across_false, HsicTest.c147_blocks, HsicTest.c148_value, HsicTest.c148_single, HsicTest.c148_pair, HsicTest.c148_raises, HsicTest.c148_order, HsicTest.c148_range, HsicTest.c148_monotone, HsicTest.c148_false, Perf.c149_returns, Perf.c149_value, Perf.c149_perfect, Perf.c149_threshold, Perf.c149_graph, Perf.c149_false, LinAlg.c150_pdinv, LinAlg.c150_false, LinAlg.c150_eigdec, LinAlg.c150_pairs, KTest.c151_kernel, KTest.c151_median_scale, KTest.c151_median_nan, KTest.c151_repeat, KTest.c151_false, KTest.c151_units, KTest.c151_rows, SHPEm.c152_monotone, SHPEm.c152_fixed, SHPEm.c152_value, SHPEm.c152_up_partial, SHPEm.c152_empty, SHPEm.c152_false, SHP.c153_table, SHP.c153_names, SHP.c153_rows, SHP.c153_influence, SHP.c153_last, SHP.c153_time, SHP.c153_total, SHP.c153_bin, SHP.c153_bin_false, SHP.c153_valid, Sim.c154_dag, Sim.c154_edges, Sim.c154_weights, Sim.c154_linear, Sim.c154_nonlinear, Sim.c154_bounded, Sim.c154_power, Sim.c154_test, Sim.c154_scale_false, Sim.c154_scalar_false, Sim.c154_uniform_false, Sim.c154_pair_var, Lag.c155_transitions, Lag.c155_asserts, Lag.c155_ends, Lag.c155_stable_false, Lag.c155_accept_false, Wald.c156_fk, Wald.c156_mean_false, Wald.c156_covf, Wald.c156_variance, Wald.c156_derivative, Wald.c156_white, Wald.c156_sources, Wald.c156_transposed_false, OlcStat.c157_normalize, OlcStat.c157_value, OlcStat.c157_multilinear, OlcStat.c157_unbiased, OlcStat.c157_loading, OlcStat.c157_fisher, OlcStat.c157_single, OlcStat.c157_monotone, OlcStat.c157_range, Orient.c158_operators, Orient.c158_extend, Orient.c158_measured, KTest.c159_kci, KTest.c159_hsic, KTest.c159_anm, KTest.c159_distinct, KTest.c159_vstat, KTest.c159_linear, KTest.c159_linear_false, SHP.c160_result, SHP.c160_record, SHP.c160_record_false, SHP.c160_agree, SHP.c160_stop, SHP.c160_tie, SHP.c160_events, SHP.c160_caller, SHP.c160_caller_false, Knn.c161_raises, Knn.c161_nearest, Knn.c161_scale, Knn.c161_perm, Knn.c161_two_false, c162_inclusion, c162_equivalent, c162_fit_partial, c162_three, c162_five, c162_false, c162_default_false, LocalScore.c163_gain, LocalScore.c163_unpenalised, LocalScore.c163_consistent, LocalScore.c163_ges, LocalScore.c163_five, LocalScore.c163_ges_partial, HsicTest.c164_returns, HsicTest.c164_range, HsicTest.c164_columns, HsicTest.c164_columns_false, HsicTest.c164_below, HsicTest.c164_above, HsicTest.c164_close, Hier.c165_pair, Hier.c165_find, Hier.c165_pure, Hier.c165_exact, Hier.c165_sample, Hier.c165_two_false, Hier.c166_tree, Hier.c166_exact, Hier.c166_sample, Hier.c166_two_false, Hier.c167_order, Hier.c167_sample, Hier.c167_svd, Hier.c167_oracle, Hier.c167_three_false, Olc.c168_three, Olc.c168_ideal, Olc.c168_svd, Olc.c168_four_false, Notears.c169_equal, Notears.c169_loop, Notears.c169_recovers, Notears.c169_optimal, Notears.c169_sample, Notears.c169_pair, Notears.c169_units, Notears.c169_standard, Notears.c169_unequal_false, EntLoss.c170_pooled, EntLoss.c170_variance, EntLoss.c170_decides, EntLoss.c170_model_false, SHPFind.c171_root, SHPFind.c171_apart, SHPFind.c171_edge, SHPFind.c171_pair, SHPFind.c171_none, SHPFind.c171_unit, SHPFind.c171_unit_false, Consistency.c172_ges, Consistency.c172_pc, Consistency.c172_kept, Level.c173_level, Level.c173_pc, Level.c173_fixed_false, Rbf.c174_dist, Rbf.c174_column, Rbf.c174_plain, Rbf.c174_plain_false, Rbf.c174_given, Rbf.c174_tuple, Rbf.c174_median, Rbf.c174_units, Rbf.c174_rows, Rbf.c174_rows_false, Rbf.c174_stale_false, Rbf.c174_psd, Rbf.c174_poly, Rbf.c174_poly_psd, Rbf.c174_poly_false, Notears.c175_loop, Notears.c175_equal, Notears.c175_pair, Notears.c175_unequal_false, SqDist.c176_dist, SqDist.c176_self, SqDist.c176_shape, SqDist.c176_weights, SqDist.c176_array, SqDist.c176_array_false, SqDist.c176_column, SqDist.c176_predict_false, SqDist.c176_tests, SqDist.c176_eigvals, Notears.c177_empty, Notears.c177_some, Notears.c177_units, Notears.c177_drawn, Notears.c177_drawn_some, Notears.c177_fixed_false, KTest.c178_limit, KTest.c178_power, KTest.c178_strategy, KTest.c178_vstat, ShuffleTest.c179_power, ShuffleTest.c179_level, ShuffleTest.c179_drawn, ShuffleTest.c179_ties_false, SpectralTest.c180_power, SpectralTest.c180_unbiased_false, MedianWidth.c181_power, FeatureTest.c182_limit, FeatureTest.c182_power, FeatureTest.c182_frequencies, FeatureTest.c182_fixed_false, AnmDrawn.c183_dependent, AnmDrawn.c183_independent, AnmDrawn.c183_direction, AnmDrawn.c183_cap_false, AnmDrawn.c183_wrong_false, AnmDrawn.c183_inconsistent_false, NullMean.c184_mean, NullMean.c184_spectral, NullMean.c184_features, NullMean.c184_kernel, NullMean.c184_kci, NullMean.c184_hsic, UnbiasedMean.c185_shuffles, UnbiasedMean.c185_mean, UnbiasedMean.c185_drawn, BlockPower.c186_unbiased, BlockPower.c186_power, BlockLevel.c187_level, BlockLevel.c187_across_false, BlockDirect.c188_moment, BlockDirect.c188_variance, BlockDirect.c188_direct_false.
