{"id": "C01", "title": "Graph stays structurally consistent through any history", "statement": "After any sequence of Graph operations (construction, add_node(s), add_edge(s), remove_node(s), remove_edge, including operations that raise), the node list has no duplicates, every listed node and only listed nodes can be queried, and connectivity is symmetric: is_connected(u,v) equals is_connected(v,u), and u is a neighbour of v exactly when v is a neighbour of u.", "quantifier": "all finite histories of public Graph operations with arbitrary arguments, from any successful construction", "why_tests_cant": "The number of histories is infinite; a test checks one history.", "anchors": ["cdmir/graph/graph.py:Graph.__init__", "cdmir/graph/graph.py:Graph.add_node", "cdmir/graph/graph.py:Graph.add_edge", "cdmir/graph/graph.py:Graph.remove_node", "cdmir/graph/graph.py:Graph.remove_edge", "cdmir/graph/graph.py:Graph.is_connected", "cdmir/graph/graph.py:Graph.get_neighbours"]}
{"id": "C02", "title": "add_edge/get_edge round trip with frame", "statement": "After a successful add_edge of an edge between two different nodes, get_edge(u,v) returns exactly that edge and get_edge(v,u) returns it with the endpoints and marks swapped; get_edge of every other pair, the node list and its order are unchanged.", "quantifier": "all reachable graphs, all edges with distinct endpoints, both values of overwrite", "why_tests_cant": "Frame conditions range over every other pair in every graph.", "anchors": ["cdmir/graph/graph.py:Graph.add_edge", "cdmir/graph/graph.py:Graph.get_edge"]}
{"id": "C03", "title": "remove_edge and remove_node remove exactly what they name", "statement": "After remove_edge(u,v) the pair is not connected and every other pair has the same edge as before; removing an absent edge changes nothing. After remove_node(u) the node is gone, every edge between two other nodes is unchanged, and the order of the other nodes is unchanged. Removing an edge just added to an unconnected pair restores every get_edge answer.", "quantifier": "all reachable graphs and all nodes", "why_tests_cant": "Frame conditions range over every other pair in every graph.", "anchors": ["cdmir/graph/graph.py:Graph.remove_edge", "cdmir/graph/graph.py:Graph.remove_node"]}
{"id": "C04", "title": "edges lists every adjacent pair exactly once", "statement": "The edges property yields, for each unordered pair of different connected nodes, exactly one edge, oriented from the node listed earlier to the node listed later, carrying the stored marks, and nothing else; number_of_edges is the number of such pairs.", "quantifier": "all reachable graphs", "why_tests_cant": "Exactly-once over all graphs and all pairs.", "anchors": ["cdmir/graph/graph.py:Graph.edges", "cdmir/graph/graph.py:Graph.number_of_edges"]}
{"id": "C05", "title": "add_edge succeeds exactly when it should, and a failing call changes nothing", "statement": "Graph.add_edge succeeds iff both nodes exist and (overwrite or the pair is not connected); DiGraph.add_edge additionally requires marks Tail/Arrow and PDAG.add_edge marks in {Tail,Arrow}. A call that raises leaves the graph as it was. add_edges applied to a list stops at the first failing edge and keeps exactly the edges before it.", "quantifier": "all reachable graphs, all edges including unknown nodes and bad marks", "why_tests_cant": "All combinations of graph, edge and flag.", "anchors": ["cdmir/graph/graph.py:Graph.add_edge", "cdmir/graph/graph.py:Graph.add_edges", "cdmir/graph/digraph.py:DiGraph.add_edge", "cdmir/graph/pdag.py:PDAG.add_edge"]}
{"id": "C06", "title": "The numeric matrix is a faithful picture of the graph", "statement": "to_numpy()[j,i] is the integer value of the mark at the j-th node on the edge between the i-th and j-th nodes and 0 if they are not connected; transpose=True gives the transpose. For DiGraph and PDAG objects on the same node sequence graph_equal returns True iff get_edge agrees on every pair.", "quantifier": "all pairs of reachable DiGraphs or PDAGs without self-loops", "why_tests_cant": "Equality of matrices versus equality of graphs over all graphs.", "anchors": ["cdmir/graph/graph.py:Graph.to_numpy", "cdmir/utils/metrics/graph_evaluation.py:graph_equal"]}
{"id": "C07", "title": "Mark discipline of DiGraph and PDAG", "statement": "In every reachable DiGraph (no self-loop added) each adjacent pair carries exactly one Tail and one Arrow, so exactly one of is_fully_directed(u,v), is_fully_directed(v,u) holds; in every reachable PDAG every mark is Tail or Arrow.", "quantifier": "all finite histories of operations on DiGraph / PDAG", "why_tests_cant": "Infinite set of histories.", "anchors": ["cdmir/graph/digraph.py:DiGraph.add_edge", "cdmir/graph/pdag.py:PDAG.add_edge", "cdmir/graph/mark.py:Mark.pdag_marks"]}
{"id": "C08", "title": "Parents and children partition the neighbours", "statement": "In a DiGraph, u is a parent of v iff v is a child of u; parents and children of a node are disjoint and together are its neighbours; sum of in_degree over nodes = sum of out_degree = number_of_edges.", "quantifier": "all reachable DiGraphs without self-loops", "why_tests_cant": "Global counting identity over all graphs.", "anchors": ["cdmir/graph/digraph.py:DiGraph.get_parents", "cdmir/graph/digraph.py:DiGraph.get_children", "cdmir/graph/digraph.py:DiGraph.in_degree", "cdmir/graph/digraph.py:DiGraph.out_degree"]}
{"id": "C09", "title": "is_d_separate decides d-separation", "statement": "is_d_separate(x,y,z) returns True iff every path between x and y (a sequence of distinct, consecutively adjacent nodes) is blocked by z: it has a non-collider in z or a collider with neither itself nor a descendant in z. In particular the search always terminates.", "quantifier": "all DiGraphs (cyclic ones included), all distinct x,y outside z, all finite z", "why_tests_cant": "Quantifies over all graphs and all paths.", "anchors": ["cdmir/graph/digraph.py:DiGraph.get_reachable_nodes", "cdmir/graph/digraph.py:DiGraph.is_d_separate"]}
{"id": "C10", "title": "d-separation is symmetric", "statement": "is_d_separate(x,y,z) == is_d_separate(y,x,z).", "quantifier": "all DiGraphs, nodes x,y and node sets z", "why_tests_cant": "The search is asymmetric; symmetry is a theorem about all graphs.", "anchors": ["cdmir/graph/digraph.py:DiGraph.is_d_separate"]}
{"id": "C11", "title": "d-separation depends only on the set z; conditioning on an endpoint separates", "statement": "Reordering or repeating members of z does not change is_d_separate; if x or y is in z the answer is True; x is never separated from itself given z not containing x.", "quantifier": "all DiGraphs, x,y, all pairs of sequences z with the same members", "why_tests_cant": "All reorderings of all sequences.", "anchors": ["cdmir/graph/digraph.py:DiGraph.get_reachable_nodes", "cdmir/graph/digraph.py:DiGraph.is_d_separate"]}
{"id": "C12", "title": "The kind of iterable passed as z does not matter", "statement": "The signature says z is an Iterable; passing the same members as a list or as a one-shot iterator gives the same answer.", "quantifier": "all DiGraphs, all z, list versus one-shot iterator", "why_tests_cant": "Tests pass lists or tuples.", "anchors": ["cdmir/graph/digraph.py:DiGraph.get_reachable_nodes"]}
{"id": "C13", "title": "Adjacent nodes are never separable; non-adjacent nodes are separated by parents", "statement": "In an acyclic DiGraph adjacent nodes are d-connected given every z not containing them, and two non-adjacent nodes are d-separated by the parents of the one that is not an ancestor of the other.", "quantifier": "all acyclic DiGraphs, all pairs, all z", "why_tests_cant": "All graphs and all conditioning sets.", "anchors": ["cdmir/graph/digraph.py:DiGraph.is_d_separate"]}
{"id": "C14", "title": "topo_sort lists parents first", "statement": "topo_sort returns nodes of the graph without repetition, every returned node comes after all of its parents, and if the graph has no directed cycle all nodes are returned.", "quantifier": "all reachable DiGraphs without self-loops", "why_tests_cant": "All graphs.", "anchors": ["cdmir/graph/digraph.py:DiGraph.topo_sort"]}
{"id": "C15", "title": "is_acyclic decides acyclicity", "statement": "is_acyclic() is True iff there is no node with a non-empty directed walk back to itself.", "quantifier": "all reachable DiGraphs without self-loops", "why_tests_cant": "All graphs and all cycles.", "anchors": ["cdmir/graph/digraph.py:DiGraph.is_acyclic", "cdmir/graph/digraph.py:DiGraph.topo_sort"]}
{"id": "C16", "title": "A self-loop is refused or noticed", "statement": "A DiGraph to which the edge u -> u was added either raises or reports is_acyclic() False.", "quantifier": "all DiGraphs and nodes", "why_tests_cant": "Tests never add self-loops.", "anchors": ["cdmir/graph/digraph.py:DiGraph.add_edge", "cdmir/graph/digraph.py:DiGraph.is_acyclic"]}
{"id": "C17", "title": "rule0 keeps the skeleton and only creates justified colliders", "statement": "PDAG.rule0 never adds or removes an adjacency and never raises when sep_set has an entry for each pair; every edge whose marks it changes ends as u->w where, for some v not adjacent to u and adjacent to w, w is not in sep_set[(u,v)]; and every unshielded triple u,w,v with w outside the separating set whose edges are not claimed by another such triple becomes u->w<-v.", "quantifier": "all PDAGs, all separating-set tables", "why_tests_cant": "All graphs and all tables.", "anchors": ["cdmir/graph/pdag.py:PDAG.rule0"]}
{"id": "C18", "title": "Meek orientation keeps the skeleton and never touches a directed edge", "statement": "rule1..rule4 and orient_by_meek_rules do not raise, keep exactly the same adjacencies, keep every edge that is not fully undirected unchanged, and change a fully undirected edge only into a directed one.", "quantifier": "all reachable PDAGs", "why_tests_cant": "All graphs, all orders in which rules fire.", "anchors": ["cdmir/graph/pdag.py:PDAG.rule1", "cdmir/graph/pdag.py:PDAG.rule2", "cdmir/graph/pdag.py:PDAG.rule3", "cdmir/graph/pdag.py:PDAG.rule4", "cdmir/graph/pdag.py:PDAG.orient_by_meek_rules"]}
{"id": "C19", "title": "orient_by_meek_rules always terminates", "statement": "The loop stops for every PDAG, after at most one more pass than there are undirected edges.", "quantifier": "all reachable PDAGs", "why_tests_cant": "Non-termination cannot be observed by a test.", "anchors": ["cdmir/graph/pdag.py:PDAG.orient_by_meek_rules"]}
{"id": "C20", "title": "The result of orient_by_meek_rules is closed and the operation idempotent", "statement": "After orient_by_meek_rules none of the four rule patterns matches any nodes of the graph, and a second call changes nothing.", "quantifier": "all reachable PDAGs", "why_tests_cant": "All graphs.", "anchors": ["cdmir/graph/pdag.py:PDAG.orient_by_meek_rules"]}
{"id": "C21", "title": "rule1 and rule2 are sound", "statement": "If a DAG extends the PDAG (same adjacencies, contains its directed edges, has no unshielded collider other than the PDAG's own), then it still does after rule1 or rule2: no orientation they make can be wrong.", "quantifier": "all PDAGs and all DAG extensions", "why_tests_cant": "All graphs and all extensions.", "anchors": ["cdmir/graph/pdag.py:PDAG.rule1", "cdmir/graph/pdag.py:PDAG.rule2"]}
{"id": "C22", "title": "rule3 and rule4 are sound", "statement": "The same for rule3 and rule4: every DAG extension of the PDAG before is an extension of the PDAG after.", "quantifier": "all PDAGs and all DAG extensions", "why_tests_cant": "All graphs and all extensions.", "anchors": ["cdmir/graph/pdag.py:PDAG.rule3", "cdmir/graph/pdag.py:PDAG.rule4"]}
{"id": "C23", "title": "dag2cpdag returns the skeleton and all v-structures of the DAG", "statement": "For every acyclic DiGraph the PDAG returned has the same node order and adjacencies, and every unshielded collider u->w<-v of the DAG is directed so in it.", "quantifier": "all acyclic DiGraphs, any iteration order of Python sets", "why_tests_cant": "All graphs; the code enumerates exponentially many conditioning sets.", "anchors": ["cdmir/graph/dag2cpdag.py:dag2cpdag"]}
{"id": "C24", "title": "dag2cpdag represents the equivalence class", "statement": "In dag2cpdag(G) an edge is directed u->v iff every DAG with the skeleton and v-structures of G has u->v.", "quantifier": "all acyclic DiGraphs", "why_tests_cant": "All graphs and all members of the class.", "anchors": ["cdmir/graph/dag2cpdag.py:dag2cpdag", "cdmir/graph/pdag.py:PDAG.orient_by_meek_rules"]}
{"id": "C25", "title": "Equivalent DAGs get the same CPDAG", "statement": "Two acyclic DiGraphs on the same node sequence with the same adjacencies and the same unshielded colliders have the same dag2cpdag (graph_equal True).", "quantifier": "all pairs of Markov-equivalent acyclic DiGraphs", "why_tests_cant": "All pairs of graphs.", "anchors": ["cdmir/graph/dag2cpdag.py:dag2cpdag"]}
{"id": "C26", "title": "pdag2dag returns a consistent extension", "statement": "Whenever pdag2dag returns, the result is an acyclic DiGraph on the same nodes with the same adjacencies, contains every directed edge of the input and has no unshielded collider that the input does not have.", "quantifier": "all PDAGs whose edges are directed or undirected", "why_tests_cant": "All graphs.", "anchors": ["cdmir/graph/pdag2dag.py:pdag2dag", "cdmir/graph/pdag2dag.py:check2"]}
{"id": "C27", "title": "pdag2dag returns exactly when an extension exists", "statement": "pdag2dag terminates iff the PDAG has a consistent DAG extension; otherwise its while loop never ends.", "quantifier": "all PDAGs whose edges are directed or undirected", "why_tests_cant": "Non-termination cannot be tested and existence ranges over all DAGs.", "anchors": ["cdmir/graph/pdag2dag.py:pdag2dag"]}
{"id": "C28", "title": "adjacency_search with a perfect oracle returns the true skeleton", "statement": "With a d-separation oracle of an acyclic graph over the variables, adjacency_search returns a fully undirected graph whose adjacencies are exactly those of the true graph.", "quantifier": "all acyclic DiGraphs, all variable orders, 0 < alpha <= 1", "why_tests_cant": "All graphs.", "anchors": ["cdmir/discovery/constraint/adjacency_search.py:adjacency_search", "cdmir/utils/independence/dsep.py:Dsep"]}
{"id": "C29", "title": "adjacency_search removes an edge only on evidence and its separating sets are symmetric", "statement": "For any test: an edge is missing from the result iff the test accepted independence for that pair given some set it was asked about; sep_set[(u,v)] equals sep_set[(v,u)] as a set, contains neither u nor v, and is the union of the accepted conditioning sets; pairs still adjacent have an empty separating set.", "quantifier": "all tests (arbitrary functions), all variable lists, all alpha", "why_tests_cant": "All oracle functions.", "anchors": ["cdmir/discovery/constraint/adjacency_search.py:adjacency_search"]}
{"id": "C30", "title": "adjacency_search does not depend on the order of the variables", "statement": "For a test that depends only on the unordered pair and the set of conditioning variables, permuting var_names gives the same adjacencies and the same separating sets.", "quantifier": "all such tests, all permutations of all variable lists", "why_tests_cant": "All permutations and all oracles.", "anchors": ["cdmir/discovery/constraint/adjacency_search.py:adjacency_search"]}
{"id": "C31", "title": "fast_adjacency_search agrees with the truth under a perfect oracle", "statement": "With a d-separation oracle of an acyclic graph fast_adjacency_search returns exactly the true adjacencies.", "quantifier": "all acyclic DiGraphs, all variable orders", "why_tests_cant": "All graphs; lazy generators over a graph that is being modified.", "anchors": ["cdmir/discovery/constraint/adjacency_search.py:fast_adjacency_search"]}
{"id": "C32", "title": "PC with the d-separation oracle equals dag2cpdag", "statement": "PC().fit(data, var_names, indep_cls=Dsep, true_graph=G) leaves a causal_graph that is graph_equal to dag2cpdag(G) when var_names is G's node order.", "quantifier": "all acyclic DiGraphs, any iteration order of Python sets", "why_tests_cant": "Two different algorithms agree on all graphs.", "anchors": ["cdmir/discovery/constraint/pc.py:PC.fit", "cdmir/graph/dag2cpdag.py:dag2cpdag"]}
{"id": "C33", "title": "PC keeps its skeleton consistent", "statement": "After fit, skeleton and causal_graph have the same adjacencies and node order, skeleton is fully undirected, and sep_set has an entry for every ordered pair; fit does not raise for any test that returns a number.", "quantifier": "all tests, all alpha, all variable lists", "why_tests_cant": "All oracle functions.", "anchors": ["cdmir/discovery/constraint/pc.py:PC.fit"]}
{"id": "C34", "title": "The independence-test cache never changes an answer of a symmetric test", "statement": "For any sequence of calls, ConditionalIndependentTest.test returns what cal_stats would return without the cache, provided cal_stats depends only on the unordered pair and the multiset of conditioning variables; cache keys of two queries are equal exactly when the queries have the same unordered pair and the same conditioning multiset.", "quantifier": "all query histories, all variable counts, all such tests", "why_tests_cant": "All histories; string keys could collide.", "anchors": ["cdmir/utils/independence/basic_independence.py:_get_cache_key", "cdmir/utils/independence/basic_independence.py:ConditionalIndependentTest.itest"]}
{"id": "C35", "title": "Dsep.test answers d-separation under any history", "statement": "For any sequence of earlier calls, Dsep.test(x,y,z) returns (1.0,1.0) if x and y are d-separated by z in the true graph and (0.0,0.0) otherwise.", "quantifier": "all acyclic or cyclic true graphs, all query histories", "why_tests_cant": "All histories.", "anchors": ["cdmir/utils/independence/dsep.py:Dsep.cal_stats", "cdmir/utils/independence/basic_independence.py:ConditionalIndependentTest.test"]}
{"id": "C36", "title": "shd is a metric", "statement": "On PDAGs over the same node sequence shd is 0 iff the graphs have the same edges, symmetric, satisfies the triangle inequality, and is at most n(n-1)/2; adding, removing or re-marking one edge changes the distance to any graph by at most 1.", "quantifier": "all triples of reachable PDAGs on the same nodes", "why_tests_cant": "All triples of graphs.", "anchors": ["cdmir/utils/metrics/graph_evaluation.py:shd"]}
{"id": "C37", "title": "Evaluation scores: perfect iff equal, precision and recall are dual", "statement": "skeleton_, arrow_ and directed_edge_evaluation: swapping the two graphs swaps precision and recall and keeps f1; precision = recall = 1 iff both graphs have the same positives and at least one; all scores lie in [0,1].", "quantifier": "all pairs of reachable graphs on the same nodes", "why_tests_cant": "All pairs of graphs.", "anchors": ["cdmir/utils/metrics/graph_evaluation.py:skeleton_evaluation", "cdmir/utils/metrics/graph_evaluation.py:arrow_evaluation", "cdmir/utils/metrics/graph_evaluation.py:directed_edge_evaluation"]}
{"id": "C38", "title": "Centring a kernel matrix centres it", "statement": "center_kernel_matrix(K) equals H K H with H = I - 11'/n, has zero row and column sums, and centring twice is centring once.", "quantifier": "all square matrices (exact arithmetic)", "why_tests_cant": "All sizes and entries.", "anchors": ["cdmir/utils/kernel/_base.py:BaseKernel.center_kernel_matrix"]}
{"id": "C39", "title": "Random DAG generation always gives a DAG", "statement": "Whatever permutation and whatever undirected matrix are drawn, the adjacency matrix returned by the random acyclic orientation has no directed cycle and each pair keeps at most one direction; with weights, the support is unchanged exactly when no number drawn for an edge is zero. The result is an orientation of the drawn graph under one renaming of the nodes.", "quantifier": "all random draws, all sizes", "why_tests_cant": "All random outcomes.", "anchors": ["cdmir/datasets/utils.py:_random_acyclic_orientation", "cdmir/datasets/utils.py:erdos_renyi"]}
{"id": "C40", "title": "merge_list returns the connected components of overlapping clusters", "statement": "The returned lists are sorted, pairwise disjoint, have the same union as the input, and two elements end in the same list iff they are linked by a chain in which consecutive elements lie in a common input cluster; empty clusters are returned as they are.", "quantifier": "all lists of clusters", "why_tests_cant": "All inputs.", "anchors": ["cdmir/discovery/funtional_based/LearningHierarchicalStructure/Overlap_Merge.py:merge_list"]}
{"id": "C41", "title": "itest answers as cal_stats on the members of z_ids whatever the kind of iterable", "statement": "ConditionalIndependentTest.itest(x,y,z) returns cal_stats(x,y,members of z) and leaves a cache in which every later answer is that of cal_stats, whatever iterable z is (list, tuple, set, iterator).", "quantifier": "all tests, all kinds of iterable, all query histories", "why_tests_cant": "All histories and iterables.", "anchors": ["cdmir/utils/independence/basic_independence.py:ConditionalIndependentTest.itest"]}
{"id": "C42", "title": "The data-converting decorator passes the call on unchanged", "statement": "A method decorated with the data-form converter behaves on every call as the undecorated method called with the same arguments and the data converted.", "quantifier": "all calls, any mix of positional and keyword arguments", "why_tests_cant": "All call shapes.", "anchors": ["cdmir/utils/adapters.py:data_form_converter", "cdmir/discovery/constraint/pc.py:PC.fit"]}
{"id": "C43", "title": "Going to the CPDAG and back stays in the class", "statement": "pdag2dag(dag2cpdag(G)) returns an acyclic DiGraph on the nodes of G with the same adjacencies and the same unshielded colliders as G.", "quantifier": "all acyclic DiGraphs", "why_tests_cant": "All graphs; termination of a while loop.", "anchors": ["cdmir/graph/dag2cpdag.py:dag2cpdag", "cdmir/graph/pdag2dag.py:pdag2dag"]}
{"id": "C44", "title": "PC with the d-separation oracle describes the equivalence class", "statement": "After PC.fit with the d-separation test of an acyclic graph G, an edge of the causal graph is directed u->v iff every DAG with the adjacencies and unshielded colliders of G has u->v, and undirected iff such DAGs orient it both ways.", "quantifier": "all acyclic DiGraphs, both searches, all 0 < alpha <= 1", "why_tests_cant": "All graphs and all members of the class.", "anchors": ["cdmir/discovery/constraint/pc.py:PC.fit", "cdmir/graph/pdag.py:PDAG.orient_by_meek_rules", "cdmir/utils/independence/dsep.py:Dsep"]}
{"id": "C45", "title": "Adding and removing lists of nodes", "statement": "add_nodes appends exactly the new nodes, once each, in order of first occurrence, isolated, and keeps every edge; remove_nodes_from removes the longest prefix of distinct existing nodes and raises at the first node that is missing or was already removed, keeping every edge between the remaining nodes.", "quantifier": "all reachable graphs, all lists of nodes", "why_tests_cant": "All histories and lists.", "anchors": ["cdmir/graph/graph.py:Graph.add_node", "cdmir/graph/graph.py:Graph.add_nodes", "cdmir/graph/graph.py:Graph.remove_nodes_from"]}
{"id": "C46", "title": "The mark queries agree with get_edge", "statement": "is_connected, is_arrow, is_tail, is_circle, is_fully_directed and is_fully_undirected answer exactly what the edge returned by get_edge shows, and raise exactly when get_edge raises.", "quantifier": "all reachable graphs, all pairs", "why_tests_cant": "All histories and pairs.", "anchors": ["cdmir/graph/graph.py:Graph.is_arrow", "cdmir/graph/graph.py:Graph.is_tail", "cdmir/graph/graph.py:Graph.is_circle", "cdmir/graph/graph.py:Graph.is_fully_directed", "cdmir/graph/graph.py:Graph.is_fully_undirected", "cdmir/graph/graph.py:Graph.get_edge"]}
{"id": "C47", "title": "GES enumerates every subset exactly once, smallest first", "statement": "Combinatorial(T0) on a list without duplicates returns every subset of T0 (as a sublist in the order of T0) exactly once, no other tuple, in order of size; the empty set comes first.", "quantifier": "all lists without duplicates", "why_tests_cant": "Exponentially many subsets for every length.", "anchors": ["cdmir/discovery/score_based/greedy_equivalence_search.py:Combinatorial"]}
{"id": "C48", "title": "GES's clique test decides pairwise adjacency", "statement": "check_clique(G, subnode) returns 1 iff any two different listed nodes are adjacent in G, whatever the marks of the edges; nothing is raised.", "quantifier": "all reachable PDAGs without self-loops, all lists of distinct nodes", "why_tests_cant": "All graphs and node lists.", "anchors": ["cdmir/discovery/score_based/greedy_equivalence_search.py:check_clique"]}
{"id": "C49", "title": "GES's path test decides blocking of semi-directed paths, and ends", "statement": "Insert_vC2_new(G, j, i, NAT) ends on every graph and returns 1 iff every path from j to i that goes only along undirected or forward-directed edges has a node of NAT before reaching i.", "quantifier": "all reachable PDAGs of directed and undirected edges without self-loops, all pairs of nodes, all NAT", "why_tests_cant": "Termination of a while loop; all paths in all graphs.", "anchors": ["cdmir/discovery/score_based/greedy_equivalence_search.py:Insert_vC2_new"]}
{"id": "C50", "title": "GES's superset marking", "statement": "find_subset_include(s0, sub) has a 1 exactly at the positions of the members of sub that contain s0.", "quantifier": "all lists and lists of lists", "why_tests_cant": "All lists.", "anchors": ["cdmir/discovery/score_based/greedy_equivalence_search.py:find_subset_include"]}
{"id": "C51", "title": "Insert and Delete change exactly the edges they name", "statement": "Insert(G,i,j,T) makes i->j and t->j for t in T directed edges and leaves every other pair as it was; Delete(G,i,j,H) leaves i and j not adjacent, makes j->h and i->h directed edges for h in H, and leaves every other pair as it was; neither raises.", "quantifier": "all reachable PDAGs of directed and undirected edges without self-loops, all distinct i, j, all lists of nodes without j (Insert), without i and j (Delete)", "why_tests_cant": "All graphs and node lists.", "anchors": ["cdmir/discovery/score_based/greedy_equivalence_search.py:Insert", "cdmir/discovery/score_based/greedy_equivalence_search.py:Delete"]}
{"id": "C52", "title": "The record of local scores never changes a score", "statement": "Whatever calls of Insert_changed_score and Delete_changed_score filled the record, the change they report is the local score with the extra parent minus (Insert), or without minus with (Delete), computed afresh.", "quantifier": "all PDAGs, all histories of calls, all scores that depend on the parents as a set", "why_tests_cant": "All histories.", "anchors": ["cdmir/discovery/score_based/greedy_equivalence_search.py:Insert_changed_score", "cdmir/discovery/score_based/greedy_equivalence_search.py:Delete_changed_score"]}
{"id": "C53", "title": "A greedy pass finds a best valid operator", "statement": "One pass of the forward (backward) loop of GES.fit selects an operator that is valid and whose score change is greatest among all valid operators, and selects none iff no valid operator has a change above -1e7; skipping subsets by the flags S loses nothing.", "quantifier": "all reachable PDAGs of directed and undirected edges, all set-determined scores, all max_p", "why_tests_cant": "All graphs and scores; pruning must be right for every subset.", "anchors": ["cdmir/discovery/score_based/greedy_equivalence_search.py:GES.fit"]}
{"id": "C54", "title": "GES ends at a local optimum", "statement": "GES.fit ends whenever every pdag2dag call inside it ends; it applies at most n(n-1)/2 insertions and as many deletions, each raising the score; the score reported is the score of the empty graph plus the changes of the applied operators; at the end no valid deletion has a positive change.", "quantifier": "all numbers of variables, all set-determined scores, all max_p", "why_tests_cant": "Termination of nested while loops; all scores.", "anchors": ["cdmir/discovery/score_based/greedy_equivalence_search.py:GES.fit", "cdmir/discovery/score_based/greedy_equivalence_search.py:Score_G"]}
{"id": "C55", "title": "On a completed PDAG, the valid operators are exactly the one-edge changes of the class, with the right score change", "statement": "Let G be the completed PDAG of a class of DAGs. If Insert (Delete) passes the validity tests on G then the changed graph has a consistent extension that is a member of the class with the edge i->j added (removed), pdag2dag returns on it, and for a decomposable score equal on equivalent DAGs the score of every extension is the score of the class plus the reported change. Conversely, whenever a member of the class stays acyclic with i->j added (or has an edge i->j to be removed), some valid operator leads to the class of the changed DAG.", "quantifier": "all completed PDAGs, all operators, all score-equivalent decomposable scores", "why_tests_cant": "All graphs, all operators; Chickering's theorems 15 and 17.", "anchors": ["cdmir/discovery/score_based/greedy_equivalence_search.py:Insert_validity_test1", "cdmir/discovery/score_based/greedy_equivalence_search.py:Insert_validity_test2", "cdmir/discovery/score_based/greedy_equivalence_search.py:Delete_validity_test", "cdmir/discovery/score_based/greedy_equivalence_search.py:Insert", "cdmir/discovery/score_based/greedy_equivalence_search.py:Delete", "cdmir/graph/pdag2dag.py:pdag2dag"]}
{"id": "C56", "title": "GES.fit returns, and returns the completed PDAG of a locally optimal class with its score", "statement": "With a decomposable score equal on equivalent DAGs, GES.fit returns; the graph returned is the completed PDAG of a class of DAGs, the score reported is the score of that class, and no DAG of the class can be improved by removing one edge.", "quantifier": "all numbers of variables, all score-equivalent decomposable scores, all max_p", "why_tests_cant": "Termination and correctness of a search over all graphs and scores; the smallest failing runs need six or seven variables and particular scores.", "anchors": ["cdmir/discovery/score_based/greedy_equivalence_search.py:GES.fit", "cdmir/graph/pdag2dag.py:pdag2dag", "cdmir/graph/dag2cpdag.py:dag2cpdag"]}
{"id": "C57", "title": "The acyclicity constraint of the gradient-based searches is zero exactly on DAGs", "statement": "For at least one variable, the value h of _h and of every h_func is never negative, and is zero iff the graph with an edge i->j for every weight from i to j that is not zero (for the network and basis models: for some weight of the group) has no directed cycle.", "quantifier": "all numbers of variables, all weights in any ordered field, all layer widths", "why_tests_cant": "All real matrices of all sizes; the value of h on a cycle can be arbitrarily small.", "anchors": ["cdmir/discovery/score_based/entropy_based/entropy_based_discovery/linear.py:notears_linear", "cdmir/discovery/score_based/entropy_based/entropy_based_discovery/linear_ent.py:h_func", "cdmir/discovery/score_based/entropy_based/entropy_based_discovery/nonlinear.py:h_func"]}
{"id": "C58", "title": "The gradients handed to the optimiser are gradients", "statement": "At every point and along every differentiable curve of weights, the derivative of the constraint, of each of the three losses and of the augmented Lagrangian over the doubled variables is the inner product of the reported gradient with the direction.", "quantifier": "all data, all numbers of samples and variables, all weights, all lambda1, rho, alpha", "why_tests_cant": "Finite differences check a gradient at finitely many points, to finite precision.", "anchors": ["cdmir/discovery/score_based/entropy_based/entropy_based_discovery/linear.py:notears_linear"]}
{"id": "C59", "title": "notears_linear returns a DAG", "statement": "notears_linear ends for every optimiser and every rho_max > 1; every weight returned is zero or at least w_threshold in size; the weights returned form a DAG whenever the constraint at the last optimum is at most h_tol.", "quantifier": "all optimisers, all parameters, all numbers of variables", "why_tests_cant": "All optimisers and sizes; the defaults let a cycle through only from five variables on.", "anchors": ["cdmir/discovery/score_based/entropy_based/entropy_based_discovery/linear.py:notears_linear"]}
{"id": "C60", "title": "Hill_Climb of SHP ends at a locally best acyclic structure", "statement": "With a time interval, Hill_Climb ends from every initial structure. The coefficients it returns form no cycle between event types. They are read off one structure that keeps the diagonal of the initial one and, by the recorded likelihoods, no acyclic structure that differs at one pair of event types scores higher. Without a time interval (the default) it never returns on two or more event types.", "quantifier": "all event tables with positive total time, all initial structures, all penalties, all random draws", "why_tests_cant": "Termination of a search over all structures whose scores come from randomly started fits and are recorded at the first visit.", "anchors": ["cdmir/discovery/point_process/SHP.py:SHP.Hill_Climb", "cdmir/discovery/point_process/SHP.py:SHP.EM", "cdmir/discovery/point_process/SHP.py:SHP.one_step_change", "cdmir/discovery/point_process/SHP.py:SHP.one_step_change_iterator"]}
{"id": "C61", "title": "count_accuracy reports what it says", "statement": "count_accuracy refuses other matrices than DAGs and CPDAGs; for DAGs the true positive rate is the share of the true edges predicted, fdr the share of the predicted edges that are not true, shd the number of pairs on which the two graphs differ, and shd is zero iff the graphs are equal.", "quantifier": "all numbers of nodes, all pairs of matrices", "why_tests_cant": "All pairs of graphs of all sizes; the rates leave [0,1] only on particular inputs.", "anchors": ["cdmir/discovery/score_based/entropy_based/entropy_based_discovery/utils.py:count_accuracy"]}
{"id": "C65", "title": "The fit of one event type in SHP ends with admissible parameters", "statement": "With a time interval, the loop that fits one event type ends, within a number of turns that depends on the table only; the coefficients found are not negative, the base rate is positive, the coefficients of other event types than the parents are unchanged, and the likelihood reported is that of the parameters reported.", "quantifier": "all real event tables with positive total time, all event types, all sets of parents, all draws in [0,1]", "why_tests_cant": "An iteration over the reals that stops on a gain below a threshold; it ends because the likelihood is bounded above.", "anchors": ["cdmir/discovery/point_process/SHP.py:SHP.EM", "cdmir/discovery/point_process/SHP.py:SHP.calculate_influence_of_each_event"]}
{"id": "C63", "title": "The BIC score is equal on equivalent DAGs", "statement": "On a positive definite correlation matrix the BIC local score never raises, depends on the parents as a set, equals minus N log of the ratio of the determinants of family and parents minus the penalty, and the sum over all families is the same for equivalent DAGs.", "quantifier": "all numbers of variables, all positive definite correlation matrices, all sample counts, all penalties", "why_tests_cant": "Equivalence of DAGs quantifies over all pairs of graphs; the score is a real function of a real matrix.", "anchors": ["cdmir/utils/local_score/bic_score.py:BICScore._score_function"]}
{"id": "C68", "title": "The BDeu score is equal on equivalent DAGs", "statement": "The sum of the BDeu local scores over all families is the same for equivalent DAGs and depends on each set of parents as a set.", "quantifier": "all tables of discrete data, all parameters", "why_tests_cant": "Equivalence of DAGs quantifies over all pairs of graphs and all tables.", "anchors": ["cdmir/utils/local_score/bdeu_score.py:BDeuScore._score_function"]}
{"id": "C64", "title": "The cache of the local scores returns the score asked for", "statement": "Whatever was asked before, a call to the cached local score returns the score of the variable and the parents given.", "quantifier": "all histories of calls, all score functions, all hash functions", "why_tests_cant": "The key is a 64-bit hash of a printed request; collisions exist but no test will hit one.", "anchors": ["cdmir/utils/local_score/_base.py:BaseLocalScoreFunction.__call__"]}
{"id": "C66", "title": "The caches of the kernels return the kernel asked for", "statement": "Whatever was computed before, a call to a kernel object returns the kernel matrix of the two samples given with the parameters now in force.", "quantifier": "all histories of calls, all samples, all hash functions", "why_tests_cant": "The key is built from the printed arrays, which leave out the middle of large arrays; a stale answer needs two large samples that agree at the ends.", "anchors": ["cdmir/utils/kernel/_base.py:BaseKernel", "cdmir/utils/kernel/linear.py:LinearKernel", "cdmir/utils/kernel/gaussian.py:GaussianKernel", "cdmir/utils/kernel/polynomial.py:PolynomialKernel"]}
{"id": "C67", "title": "The independence tests identify variables by number or name and return the p-value asked for", "statement": "The number of a variable, its name and lists or arrays of one of them mean the same variable, an unknown name raises KeyError, and whatever was asked before a call returns the p-value for the variables given.", "quantifier": "all lists of names, all histories of calls, all test functions, all hash functions", "why_tests_cant": "All histories of calls and all spellings; the key is a 64-bit hash.", "anchors": ["cdmir/utils/independence/_base.py:BaseConditionalIndependenceTest"]}
{"id": "C62", "title": "ICA_LINGAM returns a DAG, found by exhaustive search over permutations", "statement": "find_all_P lists every permutation matrix once; find_W_wave finds the row order with the smallest sum of inverse diagonal entries when there are no exact zeros; find_B_wave the one with the smallest sum of squares on and above the diagonal; fit returns a coefficient matrix whose graph is acyclic, with ones exactly at the coefficients that are not zero.", "quantifier": "all numbers of variables, all unmixing matrices, all outcomes of the tests and regressions, all iteration orders of sets", "why_tests_cant": "The number of permutations grows as the factorial; set iteration order and numerical inputs cannot be enumerated.", "anchors": ["cdmir/discovery/funtional_based/lingam_based/ica_lingam.py:find_all_P", "cdmir/discovery/funtional_based/lingam_based/ica_lingam.py:find_W_wave", "cdmir/discovery/funtional_based/lingam_based/ica_lingam.py:find_B_wave", "cdmir/discovery/funtional_based/lingam_based/ica_lingam.py:ICA_LINGAM.fit"]}
{"id": "C69", "title": "ICA_LINGAM recovers the model from a good unmixing matrix", "statement": "When the unmixing matrix is that of a linear model over a DAG, up to order and scale of its rows and small errors, fit reports the edges of the DAG, whatever the order of the columns.", "quantifier": "all DAGs, all weights, all orders of columns and rows", "why_tests_cant": "The failure depends on the size of small estimation errors relative to each other and on set iteration order.", "anchors": ["cdmir/discovery/funtional_based/lingam_based/ica_lingam.py:ICA_LINGAM.fit", "cdmir/discovery/funtional_based/lingam_based/ica_lingam.py:find_B_wave"]}
{"id": "C70", "title": "The linear simulator samples the linear model", "statement": "For every acyclic weight matrix the simulated table satisfies the structural equations value = weighted sum of the parents + scaled noise and is the only one that does; binary and count data are drawn from the weighted sum of the parents; cycles and wrong lists of scales raise ValueError; without a number of samples the returned table has the covariance of the model.", "quantifier": "all weight matrices, scales, noise types, draws, sample sizes and topological orders", "why_tests_cant": "All graphs and all orders networkx may return; draws are random.", "anchors": ["cdmir/datasets/simlulators.py:IIDSimulator.simulate_linear_anm", "cdmir/datasets/simlulators.py:IIDSimulator._simulate_single_value_linear_anm", "cdmir/datasets/simlulators.py:_gen_noise"]}
{"id": "C71", "title": "The non-linear simulator samples the non-linear model asked for", "statement": "For every acyclic matrix, every function type and every number of samples or the default, the simulated table satisfies value = function of the parents, of the type asked for, + scaled noise.", "quantifier": "all matrices, function types, scales, draws, sample sizes", "why_tests_cant": "Random weights hide which function type was used.", "anchors": ["cdmir/datasets/simlulators.py:IIDSimulator.simulate_nonlinear_anm", "cdmir/datasets/simlulators.py:IIDSimulator._simulate_single_value_nonlinear_anm"]}
{"id": "C72", "title": "The post-nonlinear simulator samples a post-nonlinear model", "statement": "For every acyclic matrix and all accepted functions the value of each sample and node is the outer function of (the inner function of the parents of this sample + noise of this sample).", "quantifier": "all matrices, function lists, hidden sizes, draws, sample sizes", "why_tests_cant": "All lists of functions and all sizes of layers; draws are random.", "anchors": ["cdmir/datasets/simlulators.py:IIDSimulator.simulate_pnl", "cdmir/datasets/simlulators.py:IIDSimulator._simulate_single_value_pnl", "cdmir/datasets/simlulators.py:_pnl_func", "cdmir/datasets/simlulators.py:_pnl_func_sequential"]}
{"id": "C73", "title": "The linear time series simulator samples the lagged linear model", "statement": "The series has one noise row per lag and one row per step; each later row is the sum over the lags of an earlier row times the matrix of that lag plus scaled noise (binary: drawn from that sum); a wrong max_lag raises ValueError.", "quantifier": "all numbers of lags, weights, lengths, scales, draws", "why_tests_cant": "All lengths and lag counts; draws are random.", "anchors": ["cdmir/datasets/simlulators.py:TimeLagSimulator.simulate_linear_anm", "cdmir/datasets/simlulators.py:TimeLagSimulator._simulate_single_time_linear_anm"]}
{"id": "C74", "title": "The non-linear time series have one mechanism per node", "statement": "At every step the value of a node is a function, the same at every step, of the masked window plus scaled noise, for the non-linear and the post-nonlinear simulators, with or without a length.", "quantifier": "all numbers of lags, masks, lengths, functions, draws", "why_tests_cant": "Random weights hide that they change from step to step.", "anchors": ["cdmir/datasets/simlulators.py:TimeLagSimulator.simulate_nonlinear_anm", "cdmir/datasets/simlulators.py:TimeLagSimulator._simulate_single_value_nonlinear_anm", "cdmir/datasets/simlulators.py:TimeLagSimulator.simulate_pnl", "cdmir/datasets/simlulators.py:TimeLagSimulator._simulate_single_time_pnl"]}
{"id": "C75", "title": "The Hawkes simulator builds a DAG, sets its kernels and tabulates every event", "statement": "The random graph has the number of edges asked for and no cycle; kernels are set exactly for its edges; the table has exactly the simulated time stamps; an interval moves each down to a multiple of it; INSEM_data has exactly the drawn counts.", "quantifier": "all shuffles, sizes, intensities, time stamps, intervals, draws", "why_tests_cant": "All shuffles and draws.", "anchors": ["cdmir/datasets/simlulators.py:HawkesSimulator.get_artificial_data", "cdmir/datasets/simlulators.py:HawkesSimulator.INSEM_data", "cdmir/datasets/simlulators.py:HawkesSimulator.generate_data"]}
{"id": "C76", "title": "The nested list of events is indexed by sequence and type", "statement": "events[s][e] is the list of the time stamps of sequence s and type e.", "quantifier": "all tables of simulated time stamps", "why_tests_cant": "Needs a type that never occurs or a sequence without events, which random tests with high rates do not give.", "anchors": ["cdmir/datasets/simlulators.py:HawkesSimulator.get_artificial_data"]}
{"id": "C77", "title": "olc ends with a mixed graph that accounts for every pair", "statement": "olc always ends. If it returns, the matrix has entries 0, 1, 2, zero diagonal, symmetric 2s between observed variables, no two-way arrows and arrows only into observed variables; each latent variable has three different children; and any two observed variables are joined, share a latent cause, or passed a test of independence.", "quantifier": "all numbers of variables, all data, all outcomes of every test and decomposition, all set orders", "why_tests_cant": "Depends on the outcome of hundreds of p-values; tests try a few datasets.", "anchors": ["cdmir/discovery/funtional_based/one_component/olc.py:olc", "cdmir/discovery/funtional_based/one_component/olc.py:surrogate_regression"]}
{"id": "C78", "title": "olc returns a graph for every number of columns", "statement": "For data with any number of columns olc returns.", "quantifier": "all numbers of variables, all outcomes of the tests", "why_tests_cant": "Needs five passes that each find a latent variable.", "anchors": ["cdmir/discovery/funtional_based/one_component/olc.py:olc"]}
{"id": "C79", "title": "olc leaves two variables unconnected exactly if a test took them to be independent", "statement": "Two observed variables are unconnected in the result of olc (no edge, no arrow, no common latent variable) if and only if a test took them to be independent.", "quantifier": "all data and all symmetric tests that ignore shift and scale", "why_tests_cant": "Tests with dependent variables only never see it.", "anchors": ["cdmir/discovery/funtional_based/one_component/olc.py:olc"]}
{"id": "C80", "title": "The coefficient of an arrow is the estimated effect", "statement": "coef[y, x] is the estimated effect of x on y for every arrow x to y and 0 elsewhere.", "quantifier": "all data", "why_tests_cant": "Random data give nan or 0 entries that nobody compares.", "anchors": ["cdmir/discovery/funtional_based/one_component/olc.py:olc"]}
{"id": "C81", "title": "olc leaves its data unchanged", "statement": "The array passed to olc has the same values after the call.", "quantifier": "all data", "why_tests_cant": "Only a comparison of the input before and after shows it.", "anchors": ["cdmir/discovery/funtional_based/one_component/olc.py:olc"]}
{"id": "C82", "title": "The kernel test does not depend on order, units or row order and is NaN only for constants", "statement": "The p-value and statistic of the unconditional kernel test are the same with the samples exchanged, with columns shifted, scaled or reflected, and with the rows reordered; the statistic is at least 0; the p-value is NaN exactly if a sample is constant and otherwise lies in [0, 1].", "quantifier": "all sample sizes, dimensions and real data, all distribution functions", "why_tests_cant": "All data; needs that the Gaussian kernel is positive semidefinite.", "anchors": ["cdmir/utils/independence/functional/kci.py:KCI.test", "cdmir/utils/independence/functional/kci.py:KCI._gamma_approx_pvalue"]}
{"id": "C83", "title": "The two implementations of the unconditional kernel test agree", "statement": "KCI.test of functional/kci.py and the approximate unconditional test of kernel_based.py with width 1 return the same p-value and statistic.", "quantifier": "all sample sizes, dimensions and real data", "why_tests_cant": "All data.", "anchors": ["cdmir/utils/independence/functional/kci.py:KCI.test", "cdmir/utils/independence/kernel_based.py:KCI"]}
{"id": "C84", "title": "HSIC does not depend on order, units or row order", "statement": "The statistic and threshold of hsic_gam are the same with the samples exchanged, shifted, scaled by a nonzero number, or with the rows reordered; the statistic is at least 0 and is NaN exactly if a sample is constant.", "quantifier": "all sample sizes, dimensions, data and quantile functions", "why_tests_cant": "All data; the width is a median over pairs.", "anchors": ["cdmir/utils/independence/functional/HSIC.py:hsic_gam", "cdmir/utils/independence/functional/HSIC.py:rbf_dot"]}
{"id": "C85", "title": "HSIC.test returns a truth value", "statement": "test(x, y) returns True or False.", "quantifier": "all data", "why_tests_cant": "Needs few rows or constant data, where the test silently returns None.", "anchors": ["cdmir/utils/independence/functional/HSIC.py:test"]}
{"id": "C86", "title": "The additive noise model scores the dependence of residual and cause", "statement": "The score of a direction is the HSIC statistic of the residual of the regression and the cause.", "quantifier": "all data and all predictions", "why_tests_cant": "The two scores are numbers of a plausible size; nobody compares them with the statistic of x and y.", "anchors": ["cdmir/discovery/funtional_based/anm/ANM.py:ANM.anm_score", "cdmir/discovery/funtional_based/anm/ANM.py:ANM.cause_or_effect", "cdmir/discovery/funtional_based/anm/ANM.py:normalized_hsic"]}
{"id": "C87", "title": "The additive noise model does not depend on units and subsamples evenly", "statement": "The scores do not change if a variable is shifted or multiplied by a positive number; exchanging the variables exchanges the scores; from more than maxpnt rows exactly maxpnt different ones are used, the first and the last among them.", "quantifier": "all data, scores, numbers of rows and of kept rows", "why_tests_cant": "The number of kept rows depends on a rounded step for every size.", "anchors": ["cdmir/discovery/funtional_based/anm/ANM.py:ANM.cause_or_effect", "cdmir/discovery/funtional_based/anm/ANM.py:FastHsicTestGamma"]}
{"id": "C88", "title": "The tetrad test ignores units, rows and exchange of the pairs", "statement": "The p-value of a tetrad difference does not change if the two pairs are exchanged, if both are reversed, if a variable is shifted or multiplied by a number other than 0, or if the rows are reordered; from three rows on it lies in [0, 1] if it is a number.", "quantifier": "all data of any number of rows, every distribution function", "why_tests_cant": "Invariance over real-valued data.", "anchors": ["cdmir/discovery/funtional_based/LearningHierarchicalStructure/VanishedTest.py:wishartEvalTetradDifference"]}
{"id": "C89", "title": "The verdict on a tetrad difference does not depend on its sign", "statement": "Exchanging the two variables of one pair, which only changes the sign of the tetrad difference, does not change the verdict.", "quantifier": "all data", "why_tests_cant": "The claim is about all data; it fails for particular data only.", "anchors": ["cdmir/discovery/funtional_based/LearningHierarchicalStructure/VanishedTest.py:wishartEvalTetradDifference", "cdmir/discovery/funtional_based/LearningHierarchicalStructure/VanishedTest.py:vanishes"]}
{"id": "C90", "title": "The check of a causal cluster does not depend on the order of a set", "statement": "CheckCausalCluster returns True exactly if at least two variables are outside and all tetrad differences of two variables inside and two outside vanish, whatever the order in which sets are read; JudgePureCluster finds a vanishing difference that separates the first two if there is one in both readings.", "quantifier": "all clusters, column lists, tests and set orders", "why_tests_cant": "Set order of strings changes from run to run.", "anchors": ["cdmir/discovery/funtional_based/LearningHierarchicalStructure/TetradMethod.py:CheckCausalCluster", "cdmir/discovery/funtional_based/LearningHierarchicalStructure/TetradMethod.py:JudgePureCluster"]}
{"id": "C91", "title": "FindCausalCluster learns sets that pass, and records each once", "statement": "Every learned cluster has at least two different columns and passes the tetrad tests itself or consists of columns joined by pairs that pass; every pair that passes lies in one learned cluster; every learned cluster is recorded exactly once, as pure or impure, behind what was recorded before; a pair is recorded as impure only if no tetrad makes it pure.", "quantifier": "all data frames with different column names, all tests, all set orders", "why_tests_cant": "Needs all outcomes of a quadratic number of tests.", "anchors": ["cdmir/discovery/funtional_based/LearningHierarchicalStructure/FindCausalCluster.py:FindCausalCluster"]}
{"id": "C92", "title": "FindCausalCluster misses nothing if it learns nothing", "statement": "If the test depends neither on the order within the pairs of a tetrad nor on the order of the pairs and no cluster is learned, then no set of two or more columns passes the tests.", "quantifier": "all data frames with different column names, all symmetric tests, all set orders", "why_tests_cant": "The loop skips the sets that leave two columns outside; only an argument over all sets shows that this does no harm.", "anchors": ["cdmir/discovery/funtional_based/LearningHierarchicalStructure/FindCausalCluster.py:FindCausalCluster"]}
{"id": "C93", "title": "The clusters of one pass are disjoint", "statement": "No variable lies in two of the clusters that FindCausalCluster learns in one call.", "quantifier": "all data frames, all tests, all set orders", "why_tests_cant": "Needs two overlapping sets of three that pass while no pair does.", "anchors": ["cdmir/discovery/funtional_based/LearningHierarchicalStructure/FindCausalCluster.py:FindCausalCluster"]}
{"id": "C94", "title": "MergeCausalCluster places every cluster and invents nothing", "statement": "Every learned cluster lies inside a merged cluster, among the impure or the pure clusters, or below an early latent variable whose children then include it; the four parts contain only learned clusters, their variables and known latent variables; no latent variable is added or lost.", "quantifier": "all clusters, tests, latent indices and set orders", "why_tests_cant": "Many branches that depend on test outcomes.", "anchors": ["cdmir/discovery/funtional_based/LearningHierarchicalStructure/MergeCluster.py:MergeCausalCluster", "cdmir/discovery/funtional_based/LearningHierarchicalStructure/MergeCluster.py:UpdateLatentIndex"]}
{"id": "C95", "title": "A cluster with an early latent variable is put below it", "statement": "If the tests find an early latent variable for an impure cluster, the cluster is put below this variable.", "quantifier": "all clusters, tests, latent indices and set orders", "why_tests_cant": "Two clusters must have the same early latent variable; the second overwrites the first in a dictionary.", "anchors": ["cdmir/discovery/funtional_based/LearningHierarchicalStructure/MergeCluster.py:MergeCausalCluster", "cdmir/discovery/funtional_based/LearningHierarchicalStructure/MergeCluster.py:OutterEarlyLearning"]}
{"id": "C96", "title": "UpdataData labels the columns correctly", "statement": "After UpdataData a variable that stays has the column it had, and a new latent variable has the column of the first variable of its cluster.", "quantifier": "all data frames, clusters and set orders", "why_tests_cant": "The frame has the right shape and the right names; only the assignment of names to columns is wrong.", "anchors": ["cdmir/discovery/funtional_based/LearningHierarchicalStructure/UpdataData.py:UpdataData"]}
{"id": "C97", "title": "The recursive procedure ends", "statement": "The loop of the procedure ends after finitely many passes, and introduces no more latent variables than there are columns.", "quantifier": "all data frames, tests and set orders", "why_tests_cant": "A test cannot observe that a loop never ends.", "anchors": ["cdmir/discovery/funtional_based/LearningHierarchicalStructure/Causal_Discovery_in_LHM.py:Causal_Discovery_LHM", "cdmir/discovery/funtional_based/LearningHierarchicalStructure/UpdataData.py:UpdataData"]}
{"id": "C98", "title": "roll_back finds two pure children", "statement": "For a latent variable in the data, roll_back returns two different pure measured children of it, and a frame with the other columns and the children with their original columns.", "quantifier": "all data frames, latent indices, pure clusters and set orders", "why_tests_cant": "Needs a latent variable made of impure clusters only, met again in a later pass.", "anchors": ["cdmir/discovery/funtional_based/LearningHierarchicalStructure/UpdataData.py:roll_back"]}
{"id": "C99", "title": "The graph drawn holds the index and the impure clusters", "statement": "The graph of Make_graph_Impure has an edge from u to w exactly if w is a child of u in the latent index, or u is a latent variable and w comes after u in an impure cluster; the latent variables stay the same.", "quantifier": "all latent indices, impure clusters and set orders", "why_tests_cant": "Many clusters that share variables in different orders.", "anchors": ["cdmir/discovery/funtional_based/LearningHierarchicalStructure/MakeGraph.py:tranImpureToLatentIndex", "cdmir/discovery/funtional_based/LearningHierarchicalStructure/MakeGraph.py:Make_graph_Impure", "cdmir/discovery/funtional_based/LearningHierarchicalStructure/MakeGraph.py:Make_graph"]}
{"id": "C100", "title": "The learned hierarchical graph has no cycle", "statement": "The graph drawn from the latent index and the impure clusters at the end of the procedure has no directed cycle.", "quantifier": "all data frames, tests and set orders", "why_tests_cant": "Needs a latent variable that is found to be the parent of one that precedes it in an impure cluster.", "anchors": ["cdmir/discovery/funtional_based/LearningHierarchicalStructure/MakeGraph.py:Make_graph_Impure", "cdmir/discovery/funtional_based/LearningHierarchicalStructure/Causal_Discovery_in_LHM.py:Causal_Discovery_LHM"]}
{"id": "C101", "title": "Transfer2Index numbers the latent variables", "statement": "Each cluster gets as many latent variables as its key says, all with different names L1, L2, and so on, each with the cluster as its children, listed together; the roots are the latent variables whose cluster is in the order, as a set.", "quantifier": "all dictionaries of clusters and all orders", "why_tests_cant": "Several clusters with several latent variables each.", "anchors": ["cdmir/discovery/funtional_based/LearningHierarchicalStructure/MakeGraph.py:Transfer2Index"]}
{"id": "C102", "title": "LearnCausalOrder orders all clusters by least dependence", "statement": "LearnCausalOrder returns each cluster once; each has the least sum of dependence among those that come after it, the first in case of a tie; with non-empty clusters it never fails.", "quantifier": "all dictionaries of clusters, all values of the mutual information", "why_tests_cant": "All outcomes of the estimate at every step, and clusters of one variable.", "anchors": ["cdmir/discovery/funtional_based/LearningHierarchicalStructure/Infer_Causal_Order.py:LearnCausalOrder", "cdmir/discovery/funtional_based/LearningHierarchicalStructure/Infer_Causal_Order.py:FindRoot", "cdmir/discovery/funtional_based/LearningHierarchicalStructure/GIN2.py:GIN_MI"]}
{"id": "C103", "title": "The graph of clusters and order has no cycle", "statement": "The graph drawn from LearnCausalOrder and Transfer2Index has no cycle, and between latent variables exactly the edges from earlier to later clusters.", "quantifier": "all dictionaries of clusters, all values of the mutual information", "why_tests_cant": "Needs a set of variables that occurs twice among the clusters.", "anchors": ["cdmir/discovery/funtional_based/LearningHierarchicalStructure/MakeGraph.py:Transfer2Index", "cdmir/discovery/funtional_based/LearningHierarchicalStructure/MakeGraph.py:Make_graph", "cdmir/discovery/funtional_based/LearningHierarchicalStructure/MakeGraph.py:RmoveEdgeBetweenN_factor"]}
{"id": "C104", "title": "The surrogate of FindRoot is uncorrelated with Z", "statement": "The linear combination of X that GIN_MI tests has zero covariance with every variable of Z, for the sets X and Z that FindRoot builds.", "quantifier": "all data, clusters and singular value decompositions", "why_tests_cant": "Real data give small values either way; whether they are zero depends on the parities of the cluster sizes.", "anchors": ["cdmir/discovery/funtional_based/LearningHierarchicalStructure/GIN2.py:getomega", "cdmir/discovery/funtional_based/LearningHierarchicalStructure/Infer_Causal_Order.py:FindRoot"]}
{"id": "C105", "title": "minimize never makes it worse", "statement": "The point that minimize returns has a value at most that of the start and of every recorded value; the recorded values go down strictly from the value at the start; no name is read before it is set; a recorded step meets the Wolfe-Powell conditions.", "quantifier": "all objectives, starting points, limits and step sizes", "why_tests_cant": "The paths through the two line searches depend on the objective; tests try a few smooth ones.", "anchors": ["cdmir/utils/local_score/score_utils.py:minimize"]}
{"id": "C106", "title": "minimize returns the best point it met", "statement": "The value at the returned point is the last recorded one and is no more than any value met.", "quantifier": "all objectives and starting points", "why_tests_cant": "A line search rarely fails, or meets a lower point before it succeeds, on the usual test functions.", "anchors": ["cdmir/utils/local_score/score_utils.py:minimize"]}
{"id": "C107", "title": "The search direction is that of Polack and Ribiere", "statement": "After a successful line search the direction is (df3.df3 - df0.df3)/(df0.df0) s - df3, and the slopes used are inner products.", "quantifier": "all gradients and directions, any number of parameters", "why_tests_cant": "With one parameter it is true; a wrong direction still goes down often enough to end.", "anchors": ["cdmir/utils/local_score/score_utils.py:minimize", "cdmir/utils/local_score/score_utils.py:gpr_multi_new"]}
{"id": "C108", "title": "The folds of the cross-validated scores", "statement": "Each row of the data is tested in exactly one fold and each fold trains on exactly the rows it does not test; nv and n1 are their numbers.", "quantifier": "all numbers of rows and folds", "why_tests_cant": "Tests use sizes that divide evenly, and more rows than folds.", "anchors": ["cdmir/utils/local_score/cross_validated_base.py:GeneralCVScore._score_function", "cdmir/utils/local_score/cross_validated_base.py:MultiCVScore._score_function"]}
{"id": "C109", "title": "When a cross-validated score exists, and what it depends on", "statement": "The score is defined exactly if neither the column scored nor that of a parent is constant, and does not change when a column is multiplied by a nonzero number and shifted.", "quantifier": "all data of reals, numbers of rows and folds, values of lambda and sets of parents", "why_tests_cant": "Rounding hides whether two scores are the same number; constant columns are left out of test data.", "anchors": ["cdmir/utils/local_score/cross_validated_base.py:GeneralCVScore._score_function", "cdmir/utils/local_score/cross_validated_base.py:MultiCVScore._score_function", "cdmir/utils/local_score/score_utils.py:kernel", "cdmir/utils/local_score/score_utils.py:dist2"]}
{"id": "C110", "title": "The matrices of a fold are positive definite and the score is bounded", "statement": "Every matrix that a fold inverts or factors is positive definite if lambda is positive, and the score is at most minus log(2 pi)/(2 k) times the sum of the squared fold sizes.", "quantifier": "all data, lambda, numbers of folds and parents", "why_tests_cant": "pdinv silently falls back to another method when the factorisation fails; a test sees only a number.", "anchors": ["cdmir/utils/local_score/cross_validated_base.py:GeneralCVScore._score_function", "cdmir/utils/local_score/cross_validated_base.py:MultiCVScore._score_function", "cdmir/utils/local_score/score_utils.py:pdinv"]}
{"id": "C111", "title": "The order of the parents does not matter", "statement": "A permutation of the parents does not change the cross-validated score.", "quantifier": "all data and lists of parents", "why_tests_cant": "There are factorially many orders.", "anchors": ["cdmir/utils/local_score/cross_validated_base.py:GeneralCVScore._score_function"]}
{"id": "C112", "title": "The marginal score of a variable is about that variable", "statement": "GeneralMarginalScore of i given pa is the score of the column i given the columns pa, and exists also without parents.", "quantifier": "all data, variables and parents", "why_tests_cant": "The existing test only asks for a result that is not None.", "anchors": ["cdmir/utils/local_score/marginal_base.py:GeneralMarginalScore._score_function", "cdmir/utils/local_score/marginal_base.py:MultiMarginalScore._score_function"]}
{"id": "C113", "title": "gpr_multi_new is the negative log marginal likelihood", "statement": "Its first result is minus the sum over the columns of y of the log density of a normal distribution with the squared exponential covariance plus noise, and it exists for all parameters.", "quantifier": "all data, all parameters, any number of inputs", "why_tests_cant": "The covariance functions are put together at run time from lists of names.", "anchors": ["cdmir/utils/local_score/score_utils.py:gpr_multi_new", "cdmir/utils/local_score/score_utils.py:covSum", "cdmir/utils/local_score/score_utils.py:covSEard", "cdmir/utils/local_score/score_utils.py:covNoise", "cdmir/utils/local_score/score_utils.py:sq_dist"]}
{"id": "C114", "title": "gpr_multi_new returns the gradient", "statement": "Its second result is the gradient of the first with respect to the parameters, so that minimize fits all of them.", "quantifier": "all data and parameters", "why_tests_cant": "A wrong gradient still lets minimize return.", "anchors": ["cdmir/utils/local_score/score_utils.py:gpr_multi_new", "cdmir/utils/local_score/score_utils.py:minimize"]}
{"id": "C115", "title": "What the result of Fisher's z test depends on", "statement": "The test is symmetric in the two variables and does not depend on the order of the conditioning variables, the order of the records, or positive scaling and shifting of a variable; the cache never changes an answer.", "quantifier": "all data of reals, all variables, conditioning lists and call histories", "why_tests_cant": "An equality over all rescalings and call histories is beyond any finite set of calls.", "anchors": ["cdmir/utils/independence/functional/fisherz.py:fisherz_from_corr", "cdmir/utils/independence/functional/fisherz.py:fisherz", "cdmir/utils/independence/fisherz.py:FisherZ"]}
{"id": "C116", "title": "The statistic is the partial correlation", "statement": "The statistic is the correlation of the residuals of the least squares regressions on the conditioning variables, lies strictly between -1 and 1, and the p-value is a decreasing function of its absolute value that is 1 exactly for zero or when the number of records leaves no degree of freedom.", "quantifier": "all positive definite correlation matrices, all numbers of records, all conditioning lists", "why_tests_cant": "A sign or index error in the inverse matrix shows only for particular correlations; NaN appears only for tiny samples.", "anchors": ["cdmir/utils/independence/functional/fisherz.py:fisherz_from_corr"]}
{"id": "C117", "title": "Fisher's z test recognises d-separation", "statement": "In a linear model over a DAG with uncorrelated errors the statistic is zero for d-separated variables, and only for those if the model is faithful.", "quantifier": "all DAGs, all coefficients and error variances, all conditioning sets", "why_tests_cant": "Sampling noise hides whether the population value is zero.", "anchors": ["cdmir/utils/independence/functional/fisherz.py:fisherz_from_corr", "cdmir/utils/independence/fisherz.py:FisherZ"]}
{"id": "C118", "title": "PC with Fisher's z test finds the CPDAG", "statement": "On the population correlations of a faithful linear model over a DAG, PC with FisherZ returns the CPDAG of the DAG for every level in (0, 1] from some number of records on.", "quantifier": "all DAGs, faithful models, levels, both search methods", "why_tests_cant": "Statement about a limit over the number of records.", "anchors": ["cdmir/utils/independence/fisherz.py:FisherZ", "cdmir/discovery/constraint/pc.py:PC.fit"]}
{"id": "C119", "title": "taylor_approx evaluates the Taylor polynomial", "statement": "With degree 1, 2, 4 or 8 the result is exactly the Taylor polynomial of the exponential; with degree 12 or 18 it is a polynomial of that degree whose coefficients differ from those of the exponential by at most a relative error of 1e-15.", "quantifier": "all elements of all real algebras", "why_tests_cant": "One wrong digit in a table of 25 constants changes results by less than the tolerance of a test.", "anchors": ["cdmir/discovery/score_based/entropy_based/pytorch_expm/expm_taylor.py:taylor_approx"]}
{"id": "C120", "title": "expm_taylor approximates the matrix exponential", "statement": "For every matrix, and for every batch, the function returns and each entry differs from that of the exponential by at most eps times the norm (for a batch one plus the norm) times the exponential of slightly more than the norm, with eps two to the -51 in double and two to the -23 in single precision.", "quantifier": "all square matrices of reals of every size, all batches, both precisions", "why_tests_cant": "An error bound for all norms, including those just above a threshold, cannot be sampled.", "anchors": ["cdmir/discovery/score_based/entropy_based/pytorch_expm/expm_taylor.py:expm_taylor"]}
{"id": "C121", "title": "matrix_power_two_batch raises every matrix to its own power", "statement": "The i-th matrix of the result is the i-th matrix raised to two to the k_i, whatever order the sort gives equal exponents.", "quantifier": "all batches, exponents and sorting permutations", "why_tests_cant": "Depends on ties of an unstable sort.", "anchors": ["cdmir/discovery/score_based/entropy_based/pytorch_expm/expm_taylor.py:matrix_power_two_batch"]}
{"id": "C122", "title": "backward is the gradient of the matrix exponential", "statement": "With an exact exponential, differential is its directional derivative and backward the gradient, also at the zero matrix; with expm_taylor itself the error is bounded as in C120.", "quantifier": "all matrices, directions and incoming gradients", "why_tests_cant": "A numerical gradient check has errors far above the bound and tests finitely many directions.", "anchors": ["cdmir/discovery/score_based/entropy_based/pytorch_expm/expm_taylor.py:differential", "cdmir/discovery/score_based/entropy_based/pytorch_expm/expm_taylor.py:expm_taylor_class.backward", "cdmir/discovery/score_based/entropy_based/pytorch_expm/expm_pade.py:differential"]}
{"id": "C123", "title": "The Pad\u00e9 approximants are right", "statement": "U + V and V - U are the numerator and the denominator of the diagonal Pad\u00e9 approximants of the exponential of degree 3, 5, 7, 9 and 13, agreeing with it up to the power 2m; for matrices whose seventh power is zero every value returned is the exponential.", "quantifier": "all elements of all real algebras; all nilpotent matrices with seventh power zero", "why_tests_cant": "A wrong coefficient of a high power is invisible at working precision.", "anchors": ["cdmir/discovery/score_based/entropy_based/pytorch_expm/expm64.py:_ExpmPadeHelper", "cdmir/discovery/score_based/entropy_based/pytorch_expm/expm32.py:_ExpmPadeHelper", "cdmir/discovery/score_based/entropy_based/pytorch_expm/expm64.py:_solve_P_Q"]}
{"id": "C124", "title": "The Pad\u00e9 versions return for every matrix", "statement": "expm64 and expm32 return an approximation for every square matrix.", "quantifier": "all square matrices of reals", "why_tests_cant": "The failing matrices are large with vanishing powers; random matrices never have these.", "anchors": ["cdmir/discovery/score_based/entropy_based/pytorch_expm/expm64.py:_expm", "cdmir/discovery/score_based/entropy_based/pytorch_expm/expm32.py:_expm", "cdmir/discovery/score_based/entropy_based/pytorch_expm/expm64.py:_ell"]}
{"id": "C125", "title": "The conditional kernel test: statistic and range", "statement": "With a given kernel for the condition the statistic is the sum of the products of the entries of the centred kernel matrices of (x, z/2) and of y, both multiplied from both sides by the residual matrix of kernel ridge regression on z. In every mode the statistic is not negative and a p-value that is a number lies in [0, 1].", "quantifier": "all samples, kernel widths, regularisation constants, both branches; all correct eigh, pinv and fitted processes", "why_tests_cant": "The two branches agree only up to rounding, and positivity holds for all samples, not the drawn ones.", "anchors": ["cdmir/utils/independence/kernel_based.py:KCI_V_statistic", "cdmir/utils/independence/kernel_based.py:kernel_matrix", "cdmir/utils/kernel/_base.py:center_kernel_matrix_regression"]}
{"id": "C126", "title": "The gamma approximation of the conditional test does not depend on the eigenvectors", "statement": "Mean and variance of the approximated null distribution are sum S_tt T_tt and twice the sum of (S_st T_st)^2 for the residual kernel matrices without their eigenvalues below the threshold; every correct eigenvalue routine gives the same p-value; the threshold moves the mean by at most 2 thr tr(A) tr(B).", "quantifier": "all samples, thresholds and correct eigenvalue routines", "why_tests_cant": "A test sees one routine, and eigenvalues with multiplicity do not occur in random data.", "anchors": ["cdmir/utils/independence/kernel_based.py:get_uuprod", "cdmir/utils/independence/kernel_based.py:get_kappa"]}
{"id": "C127", "title": "The conditional test ignores units and row order", "statement": "With a given kernel for the condition, shifting, scaling or reflecting columns, or permuting the rows of all three samples, does not change p-value and statistic.", "quantifier": "all samples, nonzero scalings, shifts and permutations", "why_tests_cant": "Quantified over all transformations; eigenvectors change with the row order.", "anchors": ["cdmir/utils/independence/kernel_based.py:kernel_matrix", "cdmir/utils/independence/kernel_based.py:get_uuprod"]}
{"id": "C128", "title": "The conditional test is symmetric", "statement": "Exchanging x and y does not change the result.", "quantifier": "all samples", "why_tests_cant": "Random tests would compare p-values of similar size and need exact equality to see the difference.", "anchors": ["cdmir/utils/independence/kernel_based.py:kernel_matrix"]}
{"id": "C129", "title": "When the conditional test returns", "statement": "With a given kernel for the condition the test returns for all samples with at least one row. In the default mode it returns exactly if there are at least four rows, y varies, and x or z varies.", "quantifier": "all samples and all fitted processes", "why_tests_cant": "The failing samples are degenerate and not drawn by a generator.", "anchors": ["cdmir/utils/independence/kernel_based.py:kernel_matrix_for_z"]}
{"id": "C130", "title": "The non-approximate modes", "statement": "Without a threshold the weights of the sampled null distribution are positive and have the sum and the sum of squares that belong to mean and variance of the gamma approximation, in the conditional and (up to 1000 rows) in the unconditional test; for a constant variable the unconditional p-value is 0 for all draws and the conditional test raises. Expected: the same beyond 1000 rows; false, there the unconditional test raises where numpy has no np.int, and else its weights add up to less than they should for all samples with different rows.", "quantifier": "all samples and draws, all correct eigenvalue routines", "why_tests_cant": "A statement about distributions cannot be read off samples.", "anchors": ["cdmir/utils/independence/kernel_based.py:null_sample_spectral", "cdmir/utils/independence/kernel_based.py:null_sample_spectral_from_centralized_kernel_matrix"]}
{"id": "C131", "title": "What the matrix of the nonlinear models means", "statement": "For NotearsMLP the estimate of variable j depends only on the variables i with W[i,j] != 0, for every activation, bias and later layer (the converse fails: a later layer can drop an input). For NotearsSobolev W[i,j] = 0 holds exactly if the estimate of j does not depend on i. The weights of a layer are the entries of its array in memory order.", "quantifier": "all networks: numbers of variables, layer widths, weights, biases, activations; all inputs", "why_tests_cant": "Independence of an input is a statement about all pairs of inputs.", "anchors": ["cdmir/discovery/score_based/entropy_based/entropy_based_discovery/nonlinear.py:NotearsMLP.forward", "cdmir/discovery/score_based/entropy_based/entropy_based_discovery/nonlinear.py:NotearsMLP.fc1_to_adj", "cdmir/discovery/score_based/entropy_based/entropy_based_discovery/nonlinear.py:NotearsSobolev.forward", "cdmir/discovery/score_based/entropy_based/entropy_based_discovery/nonlinear.py:NotearsSobolev.fc1_to_adj", "cdmir/discovery/score_based/entropy_based/entropy_based_discovery/locally_connected.py:LocallyConnected.forward"]}
{"id": "C132", "title": "The bounds of the parameters mean no self-dependence", "statement": "The bound of position (j, l, i) of the first layer is (0, 0) if i = j and (0, infinity) otherwise, in the flat vector that the optimiser sees. Every vector within the bounds makes a model with a zero diagonal whose estimate of a variable does not use that variable, and so does step() with any optimiser that keeps to its bounds. The first-layer penalty is at least the sum of the absolute weights, with equality iff no weight is split.", "quantifier": "all dimensions, layer widths, vectors within bounds, optimisers", "why_tests_cant": "The optimiser chooses the vector; all vectors within bounds are infinitely many.", "anchors": ["cdmir/discovery/score_based/entropy_based/entropy_based_discovery/nonlinear.py:NotearsMLP._bounds", "cdmir/discovery/score_based/entropy_based/entropy_based_discovery/nonlinear.py:NotearsSobolev._bounds", "cdmir/discovery/score_based/entropy_based/entropy_based_discovery/linear_ent.py:linear_nonGauss._bounds", "cdmir/discovery/score_based/entropy_based/entropy_based_discovery/lbfgsb_scipy.py:LBFGSBScipy._gather_flat_bounds", "cdmir/discovery/score_based/entropy_based/entropy_based_discovery/lbfgsb_scipy.py:LBFGSBScipy.step", "cdmir/discovery/score_based/entropy_based/entropy_based_discovery/nonlinear.py:NotearsMLP.fc1_l1_reg"]}
{"id": "C133", "title": "The flat parameter vector", "statement": "Gathering and distributing the parameters are inverse to each other; a vector that is too short raises and the surplus of one that is too long is dropped; the function given to the optimiser has the value of the closure, and its flat gradient splits into the gradients of the parameters, zero where a parameter has none.", "quantifier": "all lists of parameters of all sizes, all closures", "why_tests_cant": "All shapes of models.", "anchors": ["cdmir/discovery/score_based/entropy_based/entropy_based_discovery/lbfgsb_scipy.py:LBFGSBScipy._gather_flat_params", "cdmir/discovery/score_based/entropy_based/entropy_based_discovery/lbfgsb_scipy.py:LBFGSBScipy._distribute_flat_params", "cdmir/discovery/score_based/entropy_based/entropy_based_discovery/lbfgsb_scipy.py:LBFGSBScipy._gather_flat_grad", "cdmir/discovery/score_based/entropy_based/entropy_based_discovery/lbfgsb_scipy.py:LBFGSBScipy.step"]}
{"id": "C134", "title": "The dual ascent of the nonlinear models returns a DAG", "statement": "notears_nonlinear and train_LBFGSB end for every optimiser; a step ends with the constraint at most a quarter of the last one or the penalty at its maximum; the thresholded matrix that is returned is a DAG.", "quantifier": "all optimisers, models, constraints and parameters", "why_tests_cant": "The optimiser is arbitrary, and cycles through more variables give an ever smaller constraint.", "anchors": ["cdmir/discovery/score_based/entropy_based/entropy_based_discovery/nonlinear.py:dual_ascent_step", "cdmir/discovery/score_based/entropy_based/entropy_based_discovery/nonlinear.py:notears_nonlinear", "cdmir/discovery/score_based/entropy_based/entropy_based_discovery/nonlinear_ent.py:notears_nonlinear", "cdmir/discovery/score_based/entropy_based/entropy_based_discovery/linear_ent.py:train_LBFGSB"]}
{"id": "C135", "title": "The regularisers of linear_ent.py", "statement": "The estimate is the data times the returned matrix, whose diagonal is zero within the bounds; abs_L1 is a norm. The L2 term weighs the parameters, the L1 term of train_dam is a penalty, and annealing takes beta to zero: all three are false. The squared loss and the stored L2 term are averages over rows.", "quantifier": "all weights, data, coefficients", "why_tests_cant": "No effect for any value of lambda2 is a statement about all of them.", "anchors": ["cdmir/discovery/score_based/entropy_based/entropy_based_discovery/linear_ent.py:linear_nonGauss.forward", "cdmir/discovery/score_based/entropy_based/entropy_based_discovery/linear_ent.py:linear_nonGauss.L2", "cdmir/discovery/score_based/entropy_based/entropy_based_discovery/linear_ent.py:linear_nonGauss.L1", "cdmir/discovery/score_based/entropy_based/entropy_based_discovery/linear_ent.py:linear_nonGauss.abs_L1", "cdmir/discovery/score_based/entropy_based/entropy_based_discovery/linear_ent.py:train_LBFGSB"]}
{"id": "C136", "title": "The entropy losses", "statement": "Adding a constant to the estimates changes nothing; scaling data and estimates by a > 0 adds log a to mentappr and high_order and nothing to the two G1 losses; exchanging data and estimates, or permuting the entries over samples and variables, changes nothing; the losses are at most the Gaussian value for the spread; the typed constants are 36/(8 sqrt 3 - 9), 24/(16 sqrt 3 - 27) and sqrt(1/2); mentappr falls below every bound as the estimates approach the data. The variance is half the mean squared difference over all pairs of entries.", "quantifier": "all samples, estimates, positive scales, shifts and permutations", "why_tests_cant": "Quantified over all real scalings, and about unboundedness.", "anchors": ["cdmir/discovery/score_based/entropy_based/entropy_based_discovery/utils.py:entropy_loss_mentappr", "cdmir/discovery/score_based/entropy_based/entropy_based_discovery/utils.py:entropy_loss_high_order", "cdmir/discovery/score_based/entropy_based/entropy_based_discovery/utils.py:entropy_loss_G1", "cdmir/discovery/score_based/entropy_based/entropy_based_discovery/utils.py:entropy_loss_G1_high_order"]}
{"id": "C137", "title": "The nearest neighbour entropy", "statement": "entropy returns iff there are columns and more than k rows; the radius of a row is the unique distance with at most k rows nearer and at least k+1 not farther; the value is d * mean log(r + eps) + log of the volume of the unit ball + sum of 1/j for k <= j < n; orthogonal maps, shifts and row order change nothing; scaling by c >= 1 adds at least 0 and at most d log c, and for a sample without spread adds nothing.", "quantifier": "all arrays, numbers of neighbours, orthogonal matrices, shifts, permutations, scales", "why_tests_cant": "Ranks with ties and all isometries.", "anchors": ["cdmir/discovery/funtional_based/LearningHierarchicalStructure/mutual.py:entropy", "cdmir/discovery/funtional_based/LearningHierarchicalStructure/mutual.py:nearest_distances"]}
{"id": "C138", "title": "Mutual information of nearest neighbours", "statement": "Fewer than two variables raise; the order of variables and of rows does not matter; the value is at most a number depending on the shapes only, and constants reach it. Expected: the value is not negative; false, it is unbounded below.", "quantifier": "all lists of arrays and all numbers of neighbours", "why_tests_cant": "Unboundedness, and a bound over all samples.", "anchors": ["cdmir/discovery/funtional_based/LearningHierarchicalStructure/mutual.py:mutual_information"]}
{"id": "C139", "title": "The dependence score of two columns", "statement": "independent returns iff there are at least 11 rows, with 10 neighbours up to 3000 rows and 15 above; it is symmetric; a variable and its copy score within log 2 of a number known from n. Expected: the score is a measure of dependence; false, for every n and bound there is a variable whose score with a constant exceeds the bound and its score with itself.", "quantifier": "all samples of all sizes", "why_tests_cant": "The failing samples are degenerate.", "anchors": ["cdmir/discovery/funtional_based/LearningHierarchicalStructure/independence.py:independent", "cdmir/discovery/funtional_based/LearningHierarchicalStructure/indTest/independence.py:independent"]}
{"id": "C140", "title": "Mutual information from a histogram", "statement": "Every point is counted in exactly one bin; the value is not negative, 0 iff the smoothed histogram is the product of its marginals, and below the entropy of a marginal; the normalised value is the quotient by the joint entropy and lies in [0,1); exchanging the variables or changing their units changes nothing.", "quantifier": "all samples and filter widths", "why_tests_cant": "All samples, exact zero and strict bounds.", "anchors": ["cdmir/discovery/funtional_based/LearningHierarchicalStructure/mutual.py:mutual_information_2d"]}
{"id": "C141", "title": "Gaussian entropies", "statement": "entropy_gaussian of a number and of the 1x1 matrix agree; independent blocks add; a linear map A adds log|det A|; a pair with correlation rho has -log(1-rho^2)/2 >= 0 in common; for positive definite C it is at most the sum over the diagonal. entropy2 ignores sign and order and is at most the Gaussian value.", "quantifier": "all covariance matrices of all sizes, all samples", "why_tests_cant": "All matrices.", "anchors": ["cdmir/discovery/funtional_based/LearningHierarchicalStructure/mutual.py:entropy_gaussian", "cdmir/discovery/funtional_based/LearningHierarchicalStructure/mutual.py:entropy2"]}
{"id": "C142", "title": "Drawing a graph", "statement": "An edge between different places is one line on the straight line through both, from rim to rim, with a head at an end iff the mark there is Arrow and a small circle touching node and line iff it is Circle; it points from u to v iff the places are farther apart than circles and marks need; from the other end the picture is the same. For any layout the picture has one circle and one text per node, grey unless latent, and one line per edge. Expected: every graph is drawn; false, a graph with an edge is drawn iff the ends of its edges are strings.", "quantifier": "all graphs reachable by the API, layouts, radii, marks", "why_tests_cant": "All marks, places and graphs; a picture is not asserted on.", "anchors": ["cdmir/visual/plot_graph.py:plot_graph", "cdmir/visual/plot_graph.py:plt_edge", "cdmir/visual/plot_graph.py:plt_node"]}
{"id": "C143", "title": "The circular layout", "statement": "Every node has a place; without repeated texts the node number i, in the order of the graph or of the sorted texts, is at place i; place 0 is at the top, all are at distance scale from the middle, and two differ by the chord. With the default scale and radius the circles of the nodes are disjoint iff there are at most 35 nodes, and always lie inside the figure.", "quantifier": "all graphs, scales and numbers of nodes", "why_tests_cant": "The bound 35 holds for all pairs of places and fails for all larger graphs.", "anchors": ["cdmir/visual/graph_layout.py:circular_layout"]}
{"id": "C144", "title": "The unbiased HSIC statistic", "statement": "HSIC_U_statistic of symmetric matrices is a number iff there are at least four rows; it is then the mean over all quadruples (i,j,q,r) of different rows of Kx_ij(Ky_ij+Ky_qr-2Ky_iq), and an inner product of doubly centred matrices: not negative for equal arguments, Cauchy-Schwarz, distance correlation in [-1,1]. Diagonals and terms of one row do not matter, a factor is a factor, a constant kernel gives 0, renumbering both does not matter. It overwrites the diagonals of its arguments, so that the trace of a positive kernel centred afterwards is negative.", "quantifier": "all symmetric real matrices of any size", "why_tests_cant": "Identity between matrix products and a sum over quadruples, for all sizes.", "anchors": ["cdmir/discovery/funtional_based/LearningHierarchicalStructure/indTest/HSICTestObject.py:HSIC_U_statistic"]}
{"id": "C145", "title": "The biased HSIC statistic", "statement": "For kernels from features HSIC_V_statistic is m^2 times HSIC_V_statistic_rff, and zero iff all features are uncorrelated; not negative for positive semidefinite kernels; the distance correlation lies in [0,1], is 1 for proportional kernels and a number iff neither centred kernel vanishes; with as many features as rows the centred kernel has the characteristic polynomial of m-1 times the covariance of the features.", "quantifier": "all feature matrices and positive semidefinite kernels", "why_tests_cant": "Inequality and spectra for all kernels.", "anchors": ["cdmir/discovery/funtional_based/LearningHierarchicalStructure/indTest/HSICTestObject.py:HSIC_V_statistic", "cdmir/discovery/funtional_based/LearningHierarchicalStructure/indTest/HSICTestObject.py:HSIC_V_statistic_rff"]}
{"id": "C146", "title": "P-values from shuffles", "statement": "The p-value of the permutation test is k/(N+1) with 1<=k<=N+1; without ties exactly floor(alpha(N+1)) of the N+1 values, each in turn the statistic, have one at most alpha. The spectral test does not depend on the scales of the kernels. Expected: a constant column is not found dependent; false, it gets 1/(N+1). With random features the permutation test with unbiased=True raises. For draws whose squares have mean one the samples of the spectral test have mean zero (unbiased) or the product of the sums of eigenvalues.", "quantifier": "all kernels, lists of shuffles, levels", "why_tests_cant": "Exactness counts over all ranks; the tie case is not random.", "anchors": ["cdmir/discovery/funtional_based/LearningHierarchicalStructure/indTest/HSICPermutationTestObject.py:compute_pvalue_with_time_tracking", "cdmir/discovery/funtional_based/LearningHierarchicalStructure/indTest/HSICSpectralTestObject.py:compute_pvalue_with_time_tracking"]}
{"id": "C147", "title": "The block test", "statement": "With at least one block of at least four rows the p-value is the normal upper tail at sqrt(n b) s / sqrt(v), s the mean of the unbiased statistics of the blocks and v the variance of the method; 0, 1 or NaN by the sign of s if v is zero, which is always so for a single block with 'permutation' or 'across'. NaN for no block or blocks below four rows; raises for block size 0, an unknown method, and random features. Each row before the last full block ends is at one place of one block, rows after it only count in sqrt n; scales do not matter. Expected: 'across' is the same test as 'permutation'; false, its score is b times as large.", "quantifier": "all data, kernels, block sizes and methods", "why_tests_cant": "All sizes and kernels; the single block case looks like a result.", "anchors": ["cdmir/discovery/funtional_based/LearningHierarchicalStructure/indTest/HSICBlockTestObject.py:compute_pvalue_with_time_tracking"]}
{"id": "C148", "title": "Fisher's method", "statement": "L p-values in (0,1] with product t are combined into t sum_{k<L} (-log t)^k/k!; a single one is returned as it is; the order does not matter; the value is in [0,1] and the answer is True iff it is above alph; larger p-values, none zero, give larger values; a negative one raises ValueError, none give False and NaN. Expected: stronger evidence never gives a larger value; false, zero counts as 0.00001.", "quantifier": "all lists of real p-values and levels", "why_tests_cant": "Closed form of a distribution function for all lists.", "anchors": ["cdmir/discovery/funtional_based/LearningHierarchicalStructure/indTest/FisherTest.py:FisherTest"]}
{"id": "C149", "title": "Scoring a fitted matrix", "statement": "get_performance of square matrices returns iff the sizes agree and the true values are integers, with the predictions at most two labels, 1 among them unless there is only one; otherwise ValueError. Precision, recall and F1 then are the quotients of counts of places with |fitted| above the threshold and real value 1 (diagonal left out with drop_diag); all are 1 iff the two sets of places agree and are not empty; a larger threshold never raises recall. Expected: a graph may be given as the true one and scores perfectly against its own matrix; false, a true graph with a directed or undirected edge raises ValueError, and a fitted DiGraph has precision 1/2 and recall 1.", "quantifier": "all matrices of rationals, thresholds, graphs", "why_tests_cant": "Every matrix and graph; the failure depends on the marks only.", "anchors": ["cdmir/utils/metrics/graph_evaluation.py:get_performance"]}
{"id": "C150", "title": "pdinv and eigdec", "statement": "For a symmetric matrix pdinv returns the inverse, and nothing finite iff there is none. Expected: the same for any invertible matrix; false, if the lower triangle is that of a positive definite matrix the inverse of that one is returned, which is right iff the matrix is symmetric. eigdec raises iff N is zero or above the dimension; otherwise it returns N of the pairs found by the eigenvalue routine, largest values first, none left out larger, each vector with its value.", "quantifier": "all real square matrices of any size", "why_tests_cant": "All matrices; a wrong inverse looks like a right one.", "anchors": ["cdmir/utils/local_score/score_utils.py:pdinv", "cdmir/utils/local_score/score_utils.py:eigdec"]}
{"id": "C151", "title": "The rules for the kernel width", "statement": "The matrix of GaussianKernel is, whenever its width is a number, positive semidefinite with ones on the diagonal and entries in (0,1]. Under the median rule shifts and a common factor of the data do not change it, under the fixed rules a factor a raises each entry to the power a^2. The median is NaN iff all rows looked at are equal (all rows up to 1000). Writing every column r times changes nothing under the median rule and the rule for KCI. Expected: nor under the rule for HSIC; false, each entry is raised to the power r^2. Both fixed rules give narrower kernels with more rows, that for HSIC narrower ones than that for KCI.", "quantifier": "all data of any size, all rules", "why_tests_cant": "Positive semidefiniteness and powers for all data.", "anchors": ["cdmir/utils/kernel/gaussian.py:GaussianKernel"]}
{"id": "C152", "title": "The steps of the fit of SHP", "statement": "One turn of the loop in EM never lowers the likelihood sum_t X_ti log(rate_t) - T mu - sum_j c_j alpha_j where c_j is the denominator of the turn (the integrals of the kernel up to the end times the time interval), provided no c_j of a parent is zero; a point with positive coefficients that a turn keeps is the maximum of that likelihood over all nonnegative coefficients of the parents and positive base rates; without parents the fit returns events over time, the maximum likelihood estimate. The likelihood reported is that of the coefficients reported with c_j the number of events over the decay. Expected: no fit returns less than the likelihood it starts from; false, for every bound there is a table of two events where it loses more; true where both c_j agree.", "quantifier": "all event tables, draws, parents, numbers of turns", "why_tests_cant": "An inequality between real numbers for all tables and iterations.", "anchors": ["cdmir/discovery/point_process/SHP.py:SHP.EM"]}
{"id": "C153", "title": "The tables of SHP", "statement": "From any list of events the object has exactly one row for each sequence and time stamp at which an event occurs, in the order of sequence and time, the first of each sequence at time zero; the columns are the types that occur, in order; an entry is the number of events of its type at its row; a column adds up to the number of events of the type; no row is after the last time of its sequence. The total time is positive iff some sequence has two time stamps, and then the conditions of C60 and C65 hold. Time stamps of nonnegative times are the starts of their intervals. Expected: for all times; false, the time stamp zero stands for all times between minus and plus one interval.", "quantifier": "all lists of events, time intervals", "why_tests_cant": "All lists in all orders; grouping, shifting and order interact.", "anchors": ["cdmir/discovery/point_process/SHP.py:SHP.__init__", "cdmir/discovery/point_process/SHP.py:SHP.get_event_table"]}
{"id": "C154", "title": "Graphs and data beside NOTEARS", "statement": "simulate_dag returns for each of its three types a matrix of zeros and ones without a cycle, so its assertion never fails, and with 'ER' as many edges as were drawn. A weight is the number drawn from the range drawn for it on an edge and zero elsewhere. simulate_linear_sem, also with drawn scales, and simulate_nonlinear_sem return the one table that solves their equations, whatever the topological order. The effects of 'mlp' and 'mim' are bounded by the outer weights and by three, those of 'pow2' and 'pow3' are homogeneous. An unknown function type is noticed iff some node has a parent. Expected and false: uniform noise lies within the noise scale (the factor is the root of three, attained); the scale matters for binary and counting data; a number may be given as the noise scale of non-linear data (TypeError); simulate_pariwise has the variance asked for (iff normal, uniform, exponential, or by accident).", "quantifier": "all graphs, orders, draws, scales, parents", "why_tests_cant": "All acyclic graphs of all sizes and all draws.", "anchors": ["cdmir/discovery/score_based/entropy_based/entropy_based_discovery/utils.py:simulate_dag", "cdmir/discovery/score_based/entropy_based/entropy_based_discovery/utils.py:simulate_nonlinear_sem", "cdmir/discovery/score_based/entropy_based/entropy_based_discovery/utils.py:simulate_pariwise"]}
{"id": "C155", "title": "Transition matrices of time series", "statement": "generate_lag_transitions returns as many matrices as lags; they are the first drawn ones whose condition number is at most the percentile, scaled to columns of length one, the last one drawn first. It raises AssertionError without a node or lag. The loop ends iff an acceptable matrix is drawn. Expected: the process is stable; false, each basis vector keeps its length, and with one node the matrix is 1 or -1. Expected: a matrix is accepted only if it is among the best conditioned per cent asked for; false, for two nodes every matrix with a cosine of its columns of at most 4/5 is accepted whatever the percentage.", "quantifier": "all draws, sizes, lags, percentages", "why_tests_cant": "All sequences of real matrices.", "anchors": ["cdmir/datasets/utils.py:generate_lag_transitions", "cdmir/datasets/utils.py:_generate_uniform_mat"]}
{"id": "C156", "title": "The Wald test of ICA-LiNGAM", "statement": "For one-axis arrays, as they are given, fk is the squared length of the sources minus the identity in each entry, for every non-linearity; so the matrix in the middle of the variance is made of two vectors, the constant one and the identity, and a variance is the mean square of the influences of the records. computeQ is the derivative of the intended estimating function for white sources uncorrelated through tanh. The data are whitened up to their mean, which is not subtracted. For sources of variance one without correlation the mean of fk is the number of sources (minus one on the diagonal). Expected and false: this mean is zero; the statistic of an entry divides by the variance of this entry (it divides by that of the mirrored entry).", "quantifier": "all data, non-linearities, matrices", "why_tests_cant": "All real data and matrices of all sizes.", "anchors": ["cdmir/discovery/funtional_based/lingam_based/ica_lingam.py:fk", "cdmir/discovery/funtional_based/lingam_based/ica_lingam.py:computeQ", "cdmir/discovery/funtional_based/lingam_based/ica_lingam.py:acovW", "cdmir/discovery/funtional_based/lingam_based/ica_lingam.py:acovB", "cdmir/discovery/funtional_based/lingam_based/ica_lingam.py:calcwald"]}
{"id": "C157", "title": "The statistics of olc", "statement": "normalize gives a column that is not constant the mean zero and the variance one by a positive rescaling. xcum4 is the fourth k-statistic: linear in each column, the same for all orders of the columns, blind to shifts, not a number for one to three records, NotImplementedError for other than four columns. Its mean over n >= 4 independent records of any distribution on finitely many values is the fourth cumulant. If x = a L + e and z = b L + f and the mixed covariances and cumulants vanish, the loading computed for z is the absolute value of b times the standard deviation of L. fisher_test is Fisher's method with p-values below 0.00001, or not a number, replaced by 0.00001; it is monotone, does not depend on the order, is between 0 and 1, and has no value only for the empty list.", "quantifier": "all data, distributions, numbers of records, p-values", "why_tests_cant": "All real tables, all finite distributions, all lists.", "anchors": ["cdmir/discovery/funtional_based/one_component/olc.py:xcum4", "cdmir/discovery/funtional_based/one_component/olc.py:fisher_test", "cdmir/discovery/funtional_based/one_component/olc.py:normalize"]}
{"id": "C158", "title": "Helpers of the hierarchical procedure that the main procedure does not reach", "statement": "The set operators ask for a set that stands in the relation, an unknown operator gives false; ExtendList keeps the list, adds each new cluster that is not there as a set and nothing else; TestOverlap asks for a common variable; a test of general purity of a set asks for all tetrads of a variable of its first earlier cluster, one of the rest, the first variable of the other cluster and every variable outside. GetMeasuredVariables returns exactly if the variable is latent, its cluster contains an earlier one, all earlier clusters in it are pure and their first two variables are observed. Expected and false: the tests take lists (they raise as soon as there is an earlier cluster); if only C1 has an earlier cluster two variables of C2 are used (line 465 asks for C1 twice); Orientation_ImpureCluster returns for a non-empty list (it never does).", "quantifier": "all clusters, frames, orders of iteration", "why_tests_cant": "All lists, tables and test outcomes; raising for every non-empty list.", "anchors": ["cdmir/discovery/funtional_based/LearningHierarchicalStructure/Orientation.py:GetMeasuredVariables", "cdmir/discovery/funtional_based/LearningHierarchicalStructure/Orientation.py:Orientation_ImpureCluster", "cdmir/discovery/funtional_based/LearningHierarchicalStructure/MergeCluster.py:GeneralPurity", "cdmir/discovery/funtional_based/LearningHierarchicalStructure/MergeCluster.py:GeneralPurity_withPurity", "cdmir/discovery/funtional_based/LearningHierarchicalStructure/MergeCluster.py:TestOverlap", "cdmir/discovery/funtional_based/LearningHierarchicalStructure/Utils.py:ExtendList", "cdmir/discovery/funtional_based/LearningHierarchicalStructure/Utils.py:GeneralSetOperator"]}
{"id": "C159", "title": "Samples with the statistic zero in the kernel tests", "statement": "With Gaussian kernels of any widths the statistic of the two unconditional kernel tests, of HSIC.py (where it is a number), of HSICTestObject.py (biased, and its distance correlation) and the score of the additive noise model (up to 2000 rows) is zero exactly if, for all values a and b, the number of rows times the number of rows with the values a and b is the number of rows with a times the number of rows with b. If all rows of one sample are different, this is so only if the other sample is constant. With linear kernels it is zero exactly if all columns are uncorrelated. Expected and false: with linear kernels a statistic of zero means independence.", "quantifier": "all real samples of all sizes, all positive widths", "why_tests_cant": "A statement about zero of a real function over all samples.", "anchors": ["cdmir/utils/independence/functional/kci.py:test", "cdmir/utils/independence/kernel_based.py:HSIC_V_test_statistic_from_kernel_matrix", "cdmir/utils/independence/functional/HSIC.py:hsic_gam", "cdmir/discovery/funtional_based/anm/ANM.py:FastHsicTestGamma", "cdmir/utils/kernel/gaussian.py:__kernel_func"]}
{"id": "C160", "title": "EM_not_HC and get_interval_events", "statement": "EM_not_HC returns, for every matrix of edges and an empty record, the sum of the likelihoods of the fits less the penalty, the fitted coefficients at the edges and zero elsewhere, where EM returns minus infinity for a cycle. A fit is the first iterate whose gain is at most 0.0085, and is the fit of EM unless a gain is exactly that. Without cycles the two return the same coefficients if the sets are read in increasing order and the fits agree; the scores are equal for BIC and differ by (n + edges)(reg - 1) for AIC. After EM, EM_not_HC on the same matrix uses the record for exactly the types whose parents are read in increasing order. get_interval_events returns one list for each sequence (in the order of first events) and type (increasing) with the rounded times, each event in one list, and writes the rounded times into the caller's table. Expected: what EM has recorded is found; false for parents 1 and 8. Expected: the result does not depend on earlier calls; false.", "quantifier": "all matrices of edges, data, draws, records and events", "why_tests_cant": "All numbers of event types, all data and draws; equality of two procedures.", "anchors": ["cdmir/discovery/point_process/SHP.py:EM_not_HC", "cdmir/discovery/point_process/SHP.py:EM", "cdmir/discovery/point_process/SHP.py:get_interval_events"]}
{"id": "C161", "title": "The nearest neighbour loss", "statement": "entropy_loss_knn raises an IndexError exactly for 0 < n < 2k rows, a ZeroDivisionError for k = 0, and is a number exactly if every residual column varies. With k = 1 it is the sum over columns and rows of log(m / v + EPS), m the least squared difference to another residual and v the variance. It does not change if residual columns are shifted or multiplied by numbers other than zero, or rows are permuted. Expected: with k = 2 it uses the two nearest residuals; false, for 0, 1, 10, 11 it is greater.", "quantifier": "all data and estimates, all k, all EPS > 0", "why_tests_cant": "Statements about a real function of all samples and all scales.", "anchors": ["cdmir/discovery/score_based/entropy_based/entropy_based_discovery/utils.py:entropy_loss_knn"]}
{"id": "C162", "title": "GES finds the class of the true DAG", "statement": "If the local score depends on the parents as a set, is equal on equivalent DAGs and locally consistent with the DAG R over the variables (a further parent i of j lowers the score if R d-separates i and j by the other parents, and raises it otherwise), and max_parents is at least the number of variables less two, then GES.fit returns the completed PDAG of R and the score of R. False for six variables, because dag2cpdag can direct an edge that is reversible in the class; true if that does not happen in the run, and always for up to five variables. With the default max_parents (half the number of variables) it is false for five variables. On the way: if every d-separation of a DAG G holds in a DAG R, then G is equivalent to R or some DAG equivalent to G has an edge that can be removed with every d-separation still holding in R; two DAGs are equivalent (same adjacencies and v-structures) exactly if they have the same d-separations.", "quantifier": "all finite DAGs, all scores in an ordered field, all orders in which sets are read", "why_tests_cant": "All DAGs over any number of variables and all scores; the class of the result is a statement about all DAGs equivalent to it.", "anchors": ["cdmir/discovery/score_based/greedy_equivalence_search.py:fit", "cdmir/discovery/score_based/greedy_equivalence_search.py:Insert", "cdmir/discovery/score_based/greedy_equivalence_search.py:Delete", "cdmir/graph/dag2cpdag.py:dag2cpdag"]}
{"id": "C163", "title": "GES with the BIC score finds the class of the true DAG", "statement": "For a positive definite correlation matrix, a further parent i of j changes the BIC score of j by -N log(1 - r^2) - lambda log N, with r the partial correlation of i and j given the other parents; so for lambda <= 0 no parent lowers the score. If the covariance comes from a linear model over a DAG R with independent noise and is faithful to R, and lambda > 0, then for all large N the score with the correlation matrix of the model depends on the parents as a set, is equal on equivalent DAGs and is locally consistent with R; and GES.fit with at most five variables and max_parents at least the number of variables less two returns the completed PDAG of R with its score.", "quantifier": "all numbers of variables (GES without proviso: up to five), all faithful linear models, all lambda, all large N", "why_tests_cant": "All linear models; the statement is about every parent set and every equivalent DAG, and about all large sample sizes.", "anchors": ["cdmir/utils/local_score/bic_score.py:BICScore", "cdmir/discovery/score_based/greedy_equivalence_search.py:fit", "cdmir/graph/dag2cpdag.py:dag2cpdag"]}
{"id": "C164", "title": "HSIC by columns and from an inducing set", "statement": "SubHSIC_statistic and SubdCor_HSIC_statistic raise for a sample without columns, and otherwise return the mean over the columns, whatever their order. With positive semidefinite kernels the biased statistic is at least 0, and 0 exactly if it is 0 for each column; the distance correlation lies in [0, 1], and in [-1, 1] in the unbiased version. A biased statistic by columns of zero with Gaussian kernels means exactly that each single column is independent of Y in the sample - not that X is (false: two bits and their sum modulo two). The features of compute_induced_kernel_matrix_on_data never overstate the kernel matrix: the difference is positive semidefinite; if every row is in the inducing set, it is at most 0.000001. Hence the biased statistic from the features is at most that from the kernels, and if every row is drawn and the rows differ, it is less by at most 0.000001 times the sum of the traces.", "quantifier": "all samples, all kernels, all inducing sets", "why_tests_cant": "All samples and all positive semidefinite kernels; the bounds are on matrices of any size.", "anchors": ["cdmir/discovery/funtional_based/LearningHierarchicalStructure/indTest/HSICTestObject.py:SubHSIC_statistic", "cdmir/discovery/funtional_based/LearningHierarchicalStructure/indTest/HSICTestObject.py:SubdCor_HSIC_statistic", "cdmir/discovery/funtional_based/LearningHierarchicalStructure/indTest/HSICTestObject.py:compute_induced_kernel_matrix_on_data"]}
{"id": "C165", "title": "FindCausalCluster on a measurement model", "statement": "Let every column be a load times one latent variable plus noise, every measured latent variable be measured by at least two columns, and noise be correlated at most between the only two measures of a latent variable. On samples with the covariances of such a model, with positive definite covariance matrix and enough rows, FindCausalCluster with the tetrad tests of the code does not raise, and the clusters it finds are exactly the sets of columns that measure the same latent variable, each once. It records exactly those as impure that have two columns and no vanishing tetrad that pairs the two. That pure clusters are recorded as pure is false: without any correlated noise a cluster of two columns is recorded as impure exactly if its latent variable separates no two other columns, and with only two latent variables always.", "quantifier": "all measurement models, all levels in (0, 1), all samples with the covariances of the model from some number of rows on", "why_tests_cant": "It is about all models and all samples of all greater sizes; with exact covariances no finite set of draws has them.", "anchors": ["cdmir/discovery/funtional_based/LearningHierarchicalStructure/FindCausalCluster.py:FindCausalCluster", "cdmir/discovery/funtional_based/LearningHierarchicalStructure/TetradMethod.py:CheckCausalCluster", "cdmir/discovery/funtional_based/LearningHierarchicalStructure/TetradMethod.py:JudgePureCluster", "cdmir/discovery/funtional_based/LearningHierarchicalStructure/VanishedTest.py:vanishes"]}
{"id": "C166", "title": "Causal_Discovery_LHM on a hierarchical model", "statement": "Let every variable of a level be a load times its parent on the next level plus independent noise, every latent variable have at least three children, and every level but the highest have at least four variables, the highest at most three. On samples with the covariances of such a model, with enough rows, the loop of Causal_Discovery_LHM with the tetrad tests of the code ends without an exception; it introduces exactly one name for every latent variable, with exactly the names of its children, and reports the highest level as one impure cluster. In particular a variable above exactly three others is not found. With two children each this is false: for two latent variables with two measured variables each it reports one latent variable with four children.", "quantifier": "all hierarchical models of any depth, all levels of the test in (0, 1), all samples with the covariances of the model from some number of rows on, all orders in which sets are read", "why_tests_cant": "It is about all depths, all models and all greater sample sizes.", "anchors": ["cdmir/discovery/funtional_based/LearningHierarchicalStructure/Causal_Discovery_in_LHM.py:Causal_Discovery_LHM", "cdmir/discovery/funtional_based/LearningHierarchicalStructure/MergeCluster.py:MergeCausalCluster", "cdmir/discovery/funtional_based/LearningHierarchicalStructure/MergeCluster.py:Inner_EarlyLearning", "cdmir/discovery/funtional_based/LearningHierarchicalStructure/MergeCluster.py:TestImpureWithImpure", "cdmir/discovery/funtional_based/LearningHierarchicalStructure/MergeCluster.py:TestPureWithPure", "cdmir/discovery/funtional_based/LearningHierarchicalStructure/UpdataData.py:UpdataData", "cdmir/discovery/funtional_based/LearningHierarchicalStructure/UpdataData.py:roll_back", "cdmir/discovery/funtional_based/LearningHierarchicalStructure/FindCausalCluster.py:FindCausalCluster"]}
{"id": "C167", "title": "LearnCausalOrder on a linear latent model", "statement": "Let the latent variables follow a linear model without cycles, each with a source of its own, and let every latent variable have exactly one cluster, of two measured variables with nonzero loads and noise of their own. On a sample with the covariances of the model, with a singular value decomposition and with an estimate of mutual information that is zero exactly if the surrogate and the column share no source, LearnCausalOrder returns all clusters, and the cluster of a cause comes before the cluster of each of its effects. Paths in the model may cancel. For every model such samples, decompositions and estimates exist. With clusters of three variables this is false: there is a decomposition with which the effect comes first.", "quantifier": "all linear models without cycles with any number of latent variables, all samples with their covariances, all decompositions, all orders of the dictionary", "why_tests_cant": "It is about all models and all decompositions of a matrix, among them models in which paths cancel.", "anchors": ["cdmir/discovery/funtional_based/LearningHierarchicalStructure/Infer_Causal_Order.py:LearnCausalOrder", "cdmir/discovery/funtional_based/LearningHierarchicalStructure/Infer_Causal_Order.py:FindRoot", "cdmir/discovery/funtional_based/LearningHierarchicalStructure/GIN2.py:GIN_MI", "cdmir/discovery/funtional_based/LearningHierarchicalStructure/GIN2.py:getomega"]}
{"id": "C168", "title": "olc on one latent factor", "statement": "Let the columns be nonzero loads times one latent factor with a fourth cumulant other than zero, plus noise of their own, and let the routines answer as from the true distribution: a test accepts exactly if the two have no source in common, covariances and cumulants are those of the model, and a last singular vector is in the kernel if the matrix has one. With three columns, olc returns the graph in which the three are the children of one latent variable, and the coefficients are the loads times the standard deviation of the factor, up to a common sign. Such routines exist for every factor. With four columns this is false, whatever the loads: there are routines as above, with a right singular value decomposition, with which the graph is right and the coefficient of the fourth column is zero.", "quantifier": "all loads, variances and cumulants, all routines as described, all orders in which sets and cliques are read", "why_tests_cant": "It is about exact distributions and about all admissible singular vectors.", "anchors": ["cdmir/discovery/funtional_based/one_component/olc.py:olc", "cdmir/discovery/funtional_based/one_component/olc.py:surrogate_regression"]}
{"id": "C169", "title": "notears_linear with an ideal optimiser", "statement": "Let the optimiser find a global minimum within the bounds. If the residuals of an acyclic linear model are uncorrelated and have equal variances, the squared loss is less at the model than at every other matrix at which the constraint is zero, and notears_linear returns exactly the edges of the model, with weights as near to it as wanted, if the penalty and h_tol are small enough and rho_max and max_iter large enough. Such data exist for every acyclic model, and such an optimiser for all data with independent columns. Without equal variances this is false: of two correlated columns, the edge is from the one with the smaller variance, so that either column becomes the effect if it is given in a small enough unit. For two columns of equal variance, as in original(), the transposed solutions of the optimiser are as good, and with them the result is transposed.", "quantifier": "all acyclic linear models, all data as described, all optimisers that find a global minimum", "why_tests_cant": "It is about all optimisers and all data, and the best matrix is one among infinitely many.", "anchors": ["cdmir/discovery/score_based/entropy_based/entropy_based_discovery/linear.py:notears_linear", "cdmir/discovery/score_based/entropy_based/entropy_based_discovery/linear.py:_loss", "cdmir/discovery/score_based/entropy_based/entropy_based_discovery/linear.py:_h", "cdmir/discovery/score_based/entropy_based/entropy_based_discovery/linear.py:original"]}
{"id": "C170", "title": "The entropy losses pool the residuals", "statement": "On centred data with squared loss l (of linear.py), variance_loss is the square root of 2 n l / (n d - 1); entropy_loss_mentappr and entropy_loss_high_order are half the logarithm of that number plus a constant, less a term that depends only on the shape of all residuals together. So variance_loss compares matrices exactly as the squared loss; and entropy_loss_mentappr does so if the squared losses differ by a factor of at least exp(42). Expected: on standardised columns a linear model whose noise is independent of the cause and not normal has the least loss. False for both entropy losses.", "quantifier": "all centred data, all matrices", "why_tests_cant": "The identity is between functions on all data; the counterexample is an exact sample with real logarithms and exponentials.", "anchors": ["cdmir/discovery/score_based/entropy_based/entropy_based_discovery/utils.py:entropy_loss_mentappr", "cdmir/discovery/score_based/entropy_based/entropy_based_discovery/utils.py:entropy_loss_high_order", "cdmir/discovery/score_based/entropy_based/entropy_based_discovery/utils.py:variance_loss", "cdmir/discovery/score_based/entropy_based/entropy_based_discovery/linear_ent.py:original"]}
{"id": "C171", "title": "What Hill_Climb finds", "statement": "An event type whose events follow no event of another type (in the same sequence, within the reach of the kernel) gets no parent, and its base rate is the number of its events over the total time, for all draws and from every acyclic matrix; if that holds for all types the result has no edge. If the update charges for parent j what the likelihood charges, and the first update with the only parent j gains more than the price of an edge, then i gets a parent or comes before j; with two types, the first following none of the second, the result is exactly the edge. Expected: the result does not depend on the unit of time. False: for every table of events there is a unit of time in which, and in all smaller ones, the search from the empty matrix ends with no edge.", "quantifier": "all valid tables of events, draws, acyclic initial matrices, prices of an edge and units of time", "why_tests_cant": "The draws, the tables and the number of turns of the fits are unbounded; the likelihoods are real numbers.", "anchors": ["cdmir/discovery/point_process/SHP.py:Hill_Climb", "cdmir/discovery/point_process/SHP.py:EM", "cdmir/discovery/point_process/SHP.py:calculate_influence_of_each_event"]}
{"id": "C172", "title": "GES and PC on records drawn from a linear model", "statement": "Records are drawn independently from a distribution with finite fourth moments whose covariances are those of a faithful linear model over a DAG. As the number N of records grows, the probabilities of these events tend to one: GES.fit with the BIC score of the sample's correlation matrix (any lambda > 0, at most five variables) returns the CPDAG of the DAG; PC.fit with a new FisherZ object on the sample, either search method, at the significance level 2 (1 - Phi(q N)) with q N growing to infinity slower than the root of N, leaves the CPDAG of the DAG; PC.fit at a fixed positive level keeps every adjacency of the DAG.", "quantifier": "all probability spaces and distributions with fourth moments, all DAGs (for GES up to five variables) and faithful linear models, all lambda > 0, all levels", "why_tests_cant": "The statement is about probabilities of a limit over the number of records, for every distribution.", "anchors": ["cdmir/discovery/score_based/greedy_equivalence_search.py:fit", "cdmir/utils/local_score/bic_score.py:BICScore", "cdmir/discovery/constraint/pc.py:PC.fit", "cdmir/utils/independence/fisherz.py:FisherZ"]}
{"id": "C173", "title": "The level of Fisher's z test, and PC at a fixed level", "statement": "Records are drawn independently from a distribution with finite fourth moments and positive definite covariances. If the residuals of two variables after linear regression on a set of others are independent, then for every alpha between 0 and 1 the p-value of Fisher's z test of the two given the set, on N records, is below alpha with probability tending to alpha and at least alpha with probability tending to 1 - alpha. For two independent variables PC.fit at the level alpha joins them by an edge with probability tending to alpha; so at a fixed level the probability that PC leaves the CPDAG of the true graph need not tend to one.", "quantifier": "all probability spaces and distributions with fourth moments, all variables and conditioning sets, all levels between 0 and 1", "why_tests_cant": "The statement is about limits of probabilities over the number of records, for every distribution.", "anchors": ["cdmir/utils/independence/fisherz.py:FisherZ", "cdmir/discovery/constraint/pc.py:PC.fit"]}
{"id": "C174", "title": "The kernel functions of the scores", "statement": "dist2 (with the product of matrices, or with plain arrays of one column) is the array of the squared Euclidean distances of the rows and raises if the numbers of columns differ; dist2 of score_utils.py on plain arrays of more columns raises ValueError unless the number of rows is 1 or the number of columns. kernel with theta[0] = t > 0 has the entries theta[1] exp(-t d / 2) for squared distance d and returns 1/t; with a tuple and theta[0] = 0 it raises TypeError; with a list and theta[0] = 0 it uses and stores 2 over the median of the positive squared distances on and below the diagonal (NaN just if there are none), and then does not depend on unit and origin of the data nor, for a sample with itself, on the order of the rows. Kernel matrices of a sample with itself are positive semidefinite, those of PolynomialKernel for every degree and every constant that is not negative.", "quantifier": "all samples, all sizes, all widths, degrees and constants", "why_tests_cant": "Semidefiniteness and the invariances range over all real matrices of all sizes.", "anchors": ["cdmir/utils/local_score/score_utils.py:kernel", "cdmir/utils/local_score/score_utils.py:dist2", "cdmir/discovery/score_based/greedy_equivalence_search.py:kernel", "cdmir/discovery/score_based/greedy_equivalence_search.py:dist2", "cdmir/utils/kernel/polynomial.py:PolynomialKernel"]}
{"id": "C175", "title": "notears_linear on drawn records", "statement": "For records drawn independently from one distribution with fourth moments in which no combination of the variables is constant: if an acyclic matrix B leaves a smaller total variance than every other acyclic matrix, there are bounds on lambda1, h_tol, rho_max and max_iter, not depending on the sample, within which the probability that notears_linear with a globally optimal minimiser returns exactly the edges of B with weights within eps tends to one. A linear model with uncorrelated errors of equal variances is such a B. Of two correlated variables the edge goes from the smaller variance to the greater; so with unequal error variances the probability of the reversed edge can tend to one.", "quantifier": "all numbers of variables, all distributions with fourth moments, all thresholds, penalties and parameters within the bounds, all optimal minimisers", "why_tests_cant": "A limit of probabilities over all sample sizes cannot be reached by finitely many runs.", "anchors": ["cdmir/discovery/score_based/entropy_based/entropy_based_discovery/linear.py:notears_linear"]}
{"id": "C176", "title": "sq_dist with all its arguments, predictions of gpr_multi_new, eigenvalues only", "statement": "sq_dist of two np.matrix arguments is the array of squared distances of their columns, with a missing or empty second argument replaced by the first; with a third argument it is the column of the weighted sums of squared differences; other shapes raise. Plain arrays raise ValueError if both have at least two columns. gpr_multi_new with test inputs raises for all inputs, a TypeError wherever the training mode succeeds. eigdec with evals_only returns the N greatest eigenvalues in falling order, the same that it returns with vectors when more than a twenty-fifth is asked for.", "quantifier": "all arrays of all sizes, all lists of covariance functions, all parameters, all eigenvalue routines", "why_tests_cant": "Ranges over all shapes and all real entries; that prediction never succeeds is a statement about all inputs.", "anchors": ["cdmir/utils/local_score/score_utils.py:sq_dist", "cdmir/utils/local_score/score_utils.py:gpr_multi_new", "cdmir/utils/local_score/score_utils.py:covSum", "cdmir/utils/local_score/score_utils.py:eigdec"]}
{"id": "C177", "title": "Which penalties make notears_linear return no edge", "statement": "If no column of the centred data is a linear combination of others and lambda1 is at least the greatest absolute covariance of two different columns, notears_linear with a minimiser that reaches the minimum returns the zero matrix; with a smaller lambda1 and no threshold it never does. For drawn records the same holds of the covariances of the distribution with probability tending to one. Hence each positive penalty loses all edges of data in large enough units; with lambda1 = 0.1 an edge of weight 1/2 and errors of variance 1/10 is lost with probability tending to one.", "quantifier": "all data and distributions of all sizes, all penalties, all parameters, all minimisers that reach the minimum", "why_tests_cant": "A statement about all data, all minimisers and about limits of probabilities.", "anchors": ["cdmir/discovery/score_based/entropy_based/entropy_based_discovery/linear.py:notears_linear", "cdmir/discovery/score_based/entropy_based/entropy_based_discovery/linear.py:original"]}
{"id": "C178", "title": "The kernel test of independence finds every dependence", "statement": "For records drawn independently from one distribution whose coordinates have finite variance that is not zero, and Gaussian kernels of fixed widths, the statistic of KCI over the squared number of records tends with probability one to a number that is zero exactly if the two variables are independent; if they are dependent, the p-value exists and is below every positive level from some number of records on, with probability one, also if the kernels choose their widths by an empirical strategy. HSIC_V_statistic has such a limit on data as they are, without moments.", "quantifier": "all distributions and dimensions, all positive widths, all levels, all distribution functions that meet the inequality of Markov", "why_tests_cant": "A statement about every kind of dependence and about limits with probability one.", "anchors": ["cdmir/utils/independence/functional/kci.py:KCI", "cdmir/utils/independence/kernel_based.py:KCI", "cdmir/utils/independence/functional/kci.py:_gamma_approx_pvalue"]}
{"id": "C179", "title": "The permutation test finds every dependence and keeps its level except through ties", "statement": "For records drawn from a distribution with dependent variables and Gaussian kernels of fixed widths, with probability one the share of the tuples of m shuffles for which the permutation test returns its least p-value 1/(1+m) tends to one. For independent samples with exchangeable rows, the probability over records and uniform shuffles that the p-value is at most alpha without a tie of the statistic with a shuffled one is at most alpha. With ties this is false: a constant variable always gets the least p-value.", "quantifier": "all distributions and dimensions, all positive widths, all numbers of records and shuffles, all levels, both settings of unbiased", "why_tests_cant": "A statement about probabilities over all distributions and all tuples of permutations, and about a limit.", "anchors": ["cdmir/discovery/funtional_based/LearningHierarchicalStructure/indTest/HSICPermutationTestObject.py:compute_pvalue_with_time_tracking", "cdmir/discovery/funtional_based/LearningHierarchicalStructure/indTest/HSICTestObject.py:HSIC_with_shuffles"]}
{"id": "C180", "title": "The spectral test finds every dependence with its default setting and none with unbiased=True", "statement": "For records drawn from a distribution, Gaussian kernels of fixed widths and independent standard normal draws: with unbiased=False, if the variables are dependent then with probability one over the records the probability over the draws that the spectral test returns its least p-value tends to one; with unbiased=True, if neither variable is constant then with probability one the mean p-value over the draws is at least 1/135 from some number of records on, whether the variables are dependent or not.", "quantifier": "all distributions and dimensions, all positive widths, all numbers of draws, all correct routines for eigenvalues", "why_tests_cant": "A statement about limits with probability one for every distribution; a single run with a large p-value looks like an independent pair.", "anchors": ["cdmir/discovery/funtional_based/LearningHierarchicalStructure/indTest/HSICSpectralTestObject.py:compute_pvalue_with_time_tracking", "cdmir/discovery/funtional_based/LearningHierarchicalStructure/indTest/HSICSpectralTestObject.py:get_null_samples_with_spectral_approach", "cdmir/discovery/funtional_based/LearningHierarchicalStructure/indTest/HSICTestObject.py:get_spectrum_on_data"]}
{"id": "C181", "title": "The HSIC test with the median width finds every dependence", "statement": "For records drawn independently from one distribution of two real variables that are not independent: with probability one, HSIC.test returns False at every level between 0 and 1 from some number of records on.", "quantifier": "all distributions of two real variables, all levels, all quantile functions that obey the Markov inequality", "why_tests_cant": "A statement about limits with probability one for every distribution; the kernel widths depend on all records.", "anchors": ["cdmir/utils/independence/functional/HSIC.py:hsic_gam", "cdmir/utils/independence/functional/HSIC.py:test", "cdmir/discovery/funtional_based/LearningHierarchicalStructure/indTest/HSIC.py:independent"]}
{"id": "C182", "title": "The spectral test with random features", "statement": "For records drawn independently from one distribution and bounded measurable features: the statistic of HSICSpectralTestObject with rff=True tends with probability one to the sum of the squared covariances of the features; if one of them is not zero the probability over the normal draws that the p-value is the least possible tends to one; with random Fourier features of frequencies from a distribution that charges every open set, dependent variables are found from some number of frequencies on, with probability one over the frequencies; for every fixed list of features there are dependent variables for which the statistic tends to zero.", "quantifier": "all distributions, all bounded measurable features, all numbers of draws, all distributions of frequencies that charge every open set", "why_tests_cant": "A statement about limits with probability one for every distribution and every choice of features.", "anchors": ["cdmir/discovery/funtional_based/LearningHierarchicalStructure/indTest/HSICSpectralTestObject.py:compute_pvalue_with_time_tracking", "cdmir/discovery/funtional_based/LearningHierarchicalStructure/indTest/HSICTestObject.py:HSIC_V_statistic_rff"]}
{"id": "C183", "title": "The score of ANM.py on drawn records", "statement": "For residuals and causes drawn independently from one distribution: the statistic of FastHsicTestGamma over all rows grows at least linearly if residual and cause are dependent, and is of smaller order than the number of rows if they are independent, with probability one; but normalized_hsic, which uses at most 2000 rows, has the same distribution for all numbers of records from 2000 on, and so has the comparison of two directions; there is an additive noise model for which the wrong direction keeps a positive probability.", "quantifier": "all distributions of real residuals and causes, all numbers of records from 2000 on, all measurable sets", "why_tests_cant": "A statement about limits with probability one and about the distribution of a score for every distribution of the data.", "anchors": ["cdmir/discovery/funtional_based/anm/ANM.py:FastHsicTestGamma", "cdmir/discovery/funtional_based/anm/ANM.py:normalized_hsic", "cdmir/discovery/funtional_based/anm/ANM.py:ANM"]}
{"id": "C184", "title": "The kernel tests are compared with a distribution of the right mean", "statement": "For independently drawn records of independent variables and every number N of records from two on, the mean of the statistic is N / (N - 1) times the mean of the null samples (spectral test) or of the gamma distribution used (KCI), and (N - 1) / N times in the spectral test with random features and in HSIC.py.", "quantifier": "all distributions of independent variables, all numbers of records from 2 on, all bounded symmetric kernels that do not depend on the order of the rows, all bounded features", "why_tests_cant": "A statement about the mean over all samples of any distribution; a simulation has sampling error and covers a few distributions.", "anchors": ["cdmir/discovery/funtional_based/LearningHierarchicalStructure/indTest/HSICSpectralTestObject.py:get_null_samples_with_spectral_approach", "cdmir/discovery/funtional_based/LearningHierarchicalStructure/indTest/HSICTestObject.py:HSIC_V_statistic", "cdmir/utils/independence/functional/kci.py:_gamma_approx_pvalue", "cdmir/utils/independence/kernel_based.py:get_kappa_from_kernel_matrix", "cdmir/utils/independence/functional/HSIC.py:hsic_gam"]}
{"id": "C185", "title": "The unbiased statistic has mean zero under independence", "statement": "HSIC_U_statistic averages to exactly zero over all shuffles of the rows of one sample, for every two matrices with four rows or more, and has mean zero for independent samples with exchangeable rows.", "quantifier": "all pairs of real matrices with n >= 4 rows; all distributions of independent samples with exchangeable rows; all bounded measurable kernels that do not depend on the order of the rows", "why_tests_cant": "The shuffles are n! many, and the mean is over all samples of any distribution.", "anchors": ["cdmir/discovery/funtional_based/LearningHierarchicalStructure/indTest/HSICTestObject.py:HSIC_U_statistic", "cdmir/discovery/funtional_based/LearningHierarchicalStructure/indTest/HSICTestObject.py:HSIC_with_shuffles"]}
{"id": "C186", "title": "The unbiased statistic is unbiased, and the block test finds every dependence", "statement": "The mean of HSIC_U_statistic with Gaussian kernels of fixed widths is one number for all sample sizes from four on, zero exactly under independence; for dependent variables the p-value of the block test tends to 0 with probability one, for every block size from four on and each of the three null variances.", "quantifier": "all distributions of pairs of finite-dimensional records drawn independently; all kernel widths > 0; all block sizes >= 4; all permutations", "why_tests_cant": "A mean and a limit over infinitely many records, for every distribution.", "anchors": ["cdmir/discovery/funtional_based/LearningHierarchicalStructure/indTest/HSICTestObject.py:HSIC_U_statistic", "cdmir/discovery/funtional_based/LearningHierarchicalStructure/indTest/HSICBlockTestObject.py:compute_pvalue_with_time_tracking"]}
{"id": "C187", "title": "How often the block test rejects independent variables", "statement": "For independent variables, the probability that the p-value of the block test with the method 'permutation' is at most alpha tends to alpha with the number of blocks; with the method 'across' it tends to 1 - Phi(z/b), Phi(z) = 1 - alpha, b the block size, which is more than alpha for every alpha < 1/2.", "quantifier": "all distributions of independent finite-dimensional records for which the statistic of one block is not constant; all kernel widths > 0; all block sizes >= 4; all levels in (0,1); all permutations fixed in advance; samples of whole blocks", "why_tests_cant": "A limit of probabilities, for every distribution; a wrong level shows only in many repeated experiments.", "anchors": ["cdmir/discovery/funtional_based/LearningHierarchicalStructure/indTest/HSICBlockTestObject.py:compute_pvalue_with_time_tracking"]}
{"id": "C188", "title": "The variance of the unbiased statistic, and the method 'direct'", "statement": "Over all shuffles of one sample the mean square of HSIC_U_statistic is exactly 2uv/(m(m-3)), u and v the statistics of either matrix with itself; under independence its variance is 2 DX DY/(m(m-3)) with the means of u and v. The block test with 'direct' divides by 8 DX DY instead: it rejects independent variables with a probability tending to 1 - Phi(2z sqrt((b-3)/b)), Phi(z) = 1 - alpha, which is alpha for blocks of four rows and less than alpha for longer blocks and alpha < 1/2.", "quantifier": "all symmetric real matrices with m >= 4 rows; all distributions of independent finite-dimensional records for which the statistic is not constant; all kernel widths > 0; all block sizes >= 4; all levels in (0,1)", "why_tests_cant": "An exact identity over m! shuffles for every size, and a limit of probabilities for every distribution.", "anchors": ["cdmir/discovery/funtional_based/LearningHierarchicalStructure/indTest/HSICTestObject.py:HSIC_U_statistic", "cdmir/discovery/funtional_based/LearningHierarchicalStructure/indTest/HSICTestObject.py:HSIC_with_shuffles", "cdmir/discovery/funtional_based/LearningHierarchicalStructure/indTest/HSICBlockTestObject.py:compute_pvalue_with_time_tracking"]}
