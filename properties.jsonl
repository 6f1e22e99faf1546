{"id": "C01", "title": "Edits never create self loops, dangling endpoints or duplicate entries", "statement": "After any sequence of GraphManager edits (adding nodes and edges, removing, restoring, updating, purging), whether or not individual edits raised, no node has an edge to itself, every stored edge joins two known nodes, and each ordered pair is stored at most once.", "quantifier": "every finite sequence of graph edits with arbitrary arguments, starting from an empty graph", "why_tests_cant": "The claim is about every history of edits, including histories with failing edits in the middle; a test replays only a handful of histories.", "anchors": ["causy/graph.py:GraphManager.add_edge", "causy/graph.py:GraphManager.add_directed_edge", "causy/graph.py:GraphManager.remove_edge", "causy/graph.py:GraphManager.restore_edge", "causy/graph.py:GraphManager.purge_soft_deleted_edges"]}
{"id": "C02", "title": "parents_of_node is the exact inverse of directed_edge_exists", "statement": "After any sequence of edits in which no hard remove_edge hit a connection stored in one direction only, parents_of_node(v) lists, once each, exactly the nodes u with directed_edge_exists(u, v). Without that proviso the claim is false: a hard remove_edge on a one-directional edge raises KeyError and leaves a ghost parent.", "quantifier": "every finite edit history and every node", "why_tests_cant": "The reverse index is maintained separately by every edit; a bug only shows for particular interleavings of soft deletion, purge, restore and re-adding.", "anchors": ["causy/graph.py:GraphBaseAccessMixin.parents_of_node", "causy/graph.py:GraphManager.remove_edge", "causy/graph.py:GraphManager.remove_directed_edge"]}
{"id": "C03", "title": "Edge queries agree with each other", "statement": "edge_exists(u,v) and undirected_edge_exists(u,v) are symmetric; edge_exists(u,v) holds iff directed_edge_exists holds in at least one direction, undirected_edge_exists iff in both; and exactly one of the four cases none / only u->v / only v->u / undirected holds for each pair.", "quantifier": "every graph state and every pair of node ids", "why_tests_cant": "Must hold on every state, including states with soft-deleted edges in one direction.", "anchors": ["causy/graph.py:GraphBaseAccessMixin.edge_exists", "causy/graph.py:GraphBaseAccessMixin.directed_edge_exists", "causy/graph.py:GraphBaseAccessMixin.undirected_edge_exists", "causy/edge_types.py:DirectedEdge.GraphAccessMixin.only_directed_edge_exists"]}
{"id": "C04", "title": "Each edit changes exactly the live edges it names", "statement": "A successful add_edge makes both directions live, add_directed_edge one direction, remove_edge (soft or hard) makes both directions absent, remove_directed_edge one direction, restore_directed_edge one direction; in every case directed_edge_exists is unchanged for all other ordered pairs. Hence any successful edit history computes the same live-edge relation as a plain set of ordered pairs.", "quantifier": "every reachable graph, every edit and every ordered pair of nodes, and every successful history", "why_tests_cant": "Frame conditions (nothing else changed) range over all other pairs and all prior histories.", "anchors": ["causy/graph.py:GraphManager.add_edge", "causy/graph.py:GraphManager.add_directed_edge", "causy/graph.py:GraphManager.remove_edge", "causy/graph.py:GraphManager.remove_directed_edge", "causy/graph.py:GraphManager.restore_directed_edge"]}
{"id": "C05", "title": "Soft deletion followed by a purge equals hard deletion", "statement": "purge_soft_deleted_edges never raises, changes no answer of directed_edge_exists, edge_exists, undirected_edge_exists, retrieve_edges or parents_of_node, removes every soft-deleted entry and is idempotent; soft-deleting a directed edge and purging gives the same stored edges as deleting it outright (when nothing else was soft-deleted).", "quantifier": "every reachable graph state and every edge", "why_tests_cant": "Users rely on the purge being invisible at every point of every pipeline, not only for sampled graphs.", "anchors": ["causy/graph.py:GraphManager.purge_soft_deleted_edges", "causy/graph.py:GraphManager.remove_directed_edge"]}
{"id": "C06", "title": "Removing and restoring an edge is a round trip", "statement": "Soft-removing a live directed edge and restoring it gives back exactly the same stored edge. After a hard removal restore_directed_edge brings the edge back with its metadata but always with type DIRECTED, so the full claim (edge type included) is false for undirected or bidirected edges; restore_edge after a hard remove_edge re-creates both directions as UNDIRECTED.", "quantifier": "every reachable graph state, every edge, every metadata and edge type", "why_tests_cant": "Depends on all states and on all values of metadata and type.", "anchors": ["causy/graph.py:GraphManager.restore_edge", "causy/graph.py:GraphManager.restore_directed_edge", "causy/graph.py:GraphManager.remove_edge"]}
{"id": "C07", "title": "A failing edit leaves the graph unchanged", "statement": "If add_node, add_edge, add_directed_edge, remove_directed_edge, restore_directed_edge, update_edge, update_directed_edge, purge or a soft remove_edge raises, the graph is exactly as before. For a hard remove_edge and for restore_edge the claim is false: both can raise after having changed the graph.", "quantifier": "every reachable graph state and all arguments", "why_tests_cant": "Crash atomicity is a claim about every failure point in every state.", "anchors": ["causy/graph.py:GraphManager.remove_edge", "causy/graph.py:GraphManager.restore_edge", "causy/graph.py:GraphManager.update_edge", "causy/graph.py:GraphManager.add_node"]}
{"id": "C08", "title": "Updates touch only the addressed edge", "statement": "A successful update_edge(u,v,metadata,type) sets the given fields on u->v and v->u, update_directed_edge on u->v only; fields passed as None and all other edges keep their metadata, type and deletion flag.", "quantifier": "every reachable graph state, every pair and every metadata/type argument", "why_tests_cant": "A frame condition over all other edges in all states.", "anchors": ["causy/graph.py:GraphManager.update_edge", "causy/graph.py:GraphManager.update_directed_edge"]}
{"id": "C09", "title": "edge_value and edge_type answer for every pair of nodes", "statement": "For nodes joined in both directions, or not joined at all, edge_value/edge_type return the stored value of u->v or None and never raise. For a pair joined in the opposite direction only, the full claim is false: the call raises KeyError after a purge and returns the data of the soft-deleted edge before it.", "quantifier": "every reachable graph state and every ordered pair of ids", "why_tests_cant": "The failing case needs a particular history (orient, then purge) that a unit test of the accessor does not build.", "anchors": ["causy/graph.py:GraphBaseAccessMixin.edge_value", "causy/graph.py:GraphBaseAccessMixin.edge_type"]}
{"id": "C10", "title": "Node ids are unique and keep their insertion order", "statement": "add_node with an id already in use raises ValueError and changes nothing; otherwise the node is appended at the end and all edges and histories are untouched, so node ids are pairwise distinct in every reachable graph and existing nodes never move or disappear.", "quantifier": "every history of edits and every id", "why_tests_cant": "Uniqueness and order must hold after every history.", "anchors": ["causy/graph.py:GraphManager.add_node"]}
{"id": "C11", "title": "The edge history is append-only", "statement": "No graph edit and no applied pipeline action ever removes, changes or reorders a recorded entry of retrieve_edge_history(u,v): the old record is always a prefix of the new one. Consequently a separating set recorded for a removed edge stays available to every later step.", "quantifier": "every sequence of edits and actions and every ordered pair", "why_tests_cant": "Append-only is a statement about all executions.", "anchors": ["causy/graph.py:GraphManager.add_edge_history", "causy/graph.py:GraphBaseAccessMixin.retrieve_edge_history", "causy/graph_model.py:AbstractGraphModel._take_action"]}
{"id": "C12", "title": "retrieve_edges returns every live edge exactly once", "statement": "In every reachable graph retrieve_edges raises no exception and returns precisely the edges u->v for which directed_edge_exists(u,v), each once, with its current type and metadata, and no soft-deleted edge.", "quantifier": "every reachable graph state", "why_tests_cant": "Needs the invariant that stored endpoints are nodes, over all histories.", "anchors": ["causy/graph.py:GraphBaseAccessMixin.retrieve_edges"]}
{"id": "C13", "title": "create_all_possible_edges builds the complete undirected graph", "statement": "On a graph with any number of nodes and no edges, create_all_possible_edges succeeds and afterwards undirected_edge_exists(u,v) holds for all distinct nodes u,v and no edge_exists(u,u); every edge has type UNDIRECTED and none is deleted.", "quantifier": "every finite set of node ids", "why_tests_cant": "For every number of nodes.", "anchors": ["causy/graph_model.py:AbstractGraphModel.create_all_possible_edges"]}
{"id": "C14", "title": "descendants_of_node is exactly reachability along one-way edges", "statement": "descendants_of_node(u) terminates on every graph, cyclic or not, and returns without duplicates exactly u and the nodes reachable from u along edges a->b with directed_edge_exists(a,b) and not directed_edge_exists(b,a).", "quantifier": "every graph state and every node", "why_tests_cant": "Graph search correctness needs induction over all graphs including cyclic ones.", "anchors": ["causy/graph.py:GraphBaseAccessMixin.descendants_of_node"]}
{"id": "C15", "title": "all_paths_on_underlying_undirected_graph enumerates exactly the simple paths", "statement": "The generator terminates and yields exactly the sequences of pairwise distinct nodes from u to v in which consecutive nodes are joined by an edge, each exactly once.", "quantifier": "every graph state and every pair of nodes", "why_tests_cant": "Soundness, completeness and absence of duplicates over all graphs.", "anchors": ["causy/graph.py:GraphBaseAccessMixin.all_paths_on_underlying_undirected_graph"]}
{"id": "C16", "title": "are_nodes_d_separated_dag decides d-separation", "statement": "When the answer is True (conditioning set given as Node objects) every path between u and v is blocked in the sense of d-separation, so the nodes are d-separated; if every path has at most one collider the converse holds too. The unrestricted converse is false: on u->a<-b->c<-v given {c} the nodes are d-separated but the answer is False.", "quantifier": "every graph, every pair of nodes and every conditioning set", "why_tests_cant": "d-separation quantifies over all paths of all graphs; the wrong answer needs a path with two colliders.", "anchors": ["causy/graph.py:GraphBaseAccessMixin.are_nodes_d_separated_dag", "causy/graph.py:GraphBaseAccessMixin._is_a_collider_blocking"]}
{"id": "C17", "title": "are_nodes_d_separated_cpdag only reports separation when every path is blocked", "statement": "A True answer of are_nodes_d_separated_cpdag implies that every path between u and v is of definite status and blocked (by a definite non-collider in the set or by a collider without a descendant in it).", "quantifier": "every graph, every pair of nodes and every conditioning set", "why_tests_cant": "Quantifies over all paths of all partially directed graphs.", "anchors": ["causy/graph.py:GraphBaseAccessMixin.are_nodes_d_separated_cpdag"]}
{"id": "C18", "title": "Conditioning sets given as ids or as nodes are interchangeable", "statement": "The API accepts ids and Node objects; the answers should agree and u or v in the set should be rejected. This is false: ids are ignored for blocking (the answer is that of the empty set), and Node objects bypass the rejection of u and v.", "quantifier": "every graph and every conditioning set", "why_tests_cant": "An API-wide equivalence over all conditioning sets.", "anchors": ["causy/graph.py:GraphBaseAccessMixin.are_nodes_d_separated_dag"]}
{"id": "C19", "title": "directed_path_exists decides directed reachability", "statement": "On graphs whose stored edges are acyclic, without soft-deleted edges and where each node has a row, directed_path_exists(u,v) terminates and answers whether a non-empty directed path exists. Without these conditions it is false: it follows soft-deleted edges, and with an undirected edge it can recurse forever.", "quantifier": "every graph and every pair of nodes", "why_tests_cant": "Termination and correctness over all graphs.", "anchors": ["causy/graph.py:GraphBaseAccessMixin.directed_path_exists"]}
{"id": "C20", "title": "directed_paths returns exactly the directed paths", "statement": "Every sequence returned by directed_paths is a directed path from u to v. The completeness half (all directed paths) is false: as soon as u->v is an edge only that edge is returned.", "quantifier": "every graph and every pair of nodes", "why_tests_cant": "Soundness and completeness over all graphs.", "anchors": ["causy/edge_types.py:DirectedEdge.GraphAccessMixin.directed_paths"]}
{"id": "C21", "title": "A dry run never changes the graph", "statement": "Applying any list of proposed actions with dry_run set (as ApplyActionsTogether does for each inner step), with no hooks configured, leaves the whole graph, including its histories, unchanged and reports exactly the proposed actions as taken.", "quantifier": "every graph and every list of action batches", "why_tests_cant": "For all action lists and states.", "anchors": ["causy/graph_model.py:AbstractGraphModel._take_action", "causy/common_pipeline_steps/logic.py:ApplyActionsTogether.execute"]}
{"id": "C22", "title": "Taken actions are a subsequence of the proposed ones and skipped actions leave no trace", "statement": "Without hooks the reported taken actions are a subsequence, in order, of the reported proposed actions; DO_NOTHING is never reported as taken; an action that is skipped leaves the graph completely unchanged; and the final graph depends only on the taken actions.", "quantifier": "every graph and every list of action batches", "why_tests_cant": "For all lists of actions and states.", "anchors": ["causy/graph_model.py:AbstractGraphModel._take_action"]}
{"id": "C23", "title": "Removal actions have their documented effect and cannot fail", "statement": "On every reachable graph applying REMOVE_EDGE_UNDIRECTED, REMOVE_EDGE_DIRECTED and DO_NOTHING actions between known nodes never raises. REMOVE_EDGE_UNDIRECTED removes both directions iff both were live and otherwise does nothing; REMOVE_EDGE_DIRECTED(u,v) makes u->v absent and, if v->u is live, gives v->u the type DIRECTED; no other pair is affected.", "quantifier": "every reachable graph and every action list of these kinds", "why_tests_cant": "Exceptions in the middle of a pipeline depend on the whole preceding history.", "anchors": ["causy/graph_model.py:AbstractGraphModel._take_action"]}
{"id": "C24", "title": "Only restore actions can create adjacencies", "statement": "Applying any list of actions that contains no RESTORE_EDGE or RESTORE_EDGE_DIRECTED never makes an edge live that was not live before, in either direction.", "quantifier": "every graph and every list of action batches", "why_tests_cant": "Monotonicity over all action lists.", "anchors": ["causy/graph_model.py:AbstractGraphModel._take_action"]}
{"id": "C25", "title": "Orienting an edge keeps the nodes adjacent", "statement": "A batch of REMOVE_EDGE_DIRECTED actions that never contains both (u,v) and (v,u), applied to a graph, keeps every undirected connection adjacent. Without the proviso the claim is false: proposing both directions deletes the connection, and an action on an already removed direction is still reported as taken.", "quantifier": "every graph and every batch", "why_tests_cant": "Conflicting proposals arise only from particular graphs.", "anchors": ["causy/graph_model.py:AbstractGraphModel._take_action"]}
{"id": "C26", "title": "Actions that change an edge type raise for every existing edge", "statement": "The full claim is false of the code: the handler reads a field the action object does not have, so every UPDATE_EDGE_TYPE or UPDATE_EDGE_TYPE_DIRECTED action on an existing edge raises AttributeError; on a missing edge it is skipped. Proved: the exact outcome for all graphs and pairs.", "quantifier": "every graph and every pair of nodes", "why_tests_cant": "The outcome is the same for all inputs, which is the point.", "anchors": ["causy/graph_model.py:AbstractGraphModel._take_action", "causy/models.py:TestResult"]}
{"id": "C27", "title": "No applied action changes the stored key sets except restores", "statement": "Applying actions other than restores never adds or removes a key of graph.edges or of graph.edges[u], so lazily iterating generators over the live graph (chunked steps) never see a dictionary change size during iteration.", "quantifier": "every graph and every list of action batches", "why_tests_cant": "The failure would be a RuntimeError depending on the interleaving of generation and application.", "anchors": ["causy/graph_model.py:AbstractGraphModel.execute_pipeline_step", "causy/generators.py:PairsWithNeighboursGenerator.generate"]}
{"id": "C28", "title": "The skeleton after undirected removals does not depend on the order of results", "statement": "For any two orderings of the same multiset of REMOVE_EDGE_UNDIRECTED/DO_NOTHING results (as delivered by imap_unordered) the resulting live edges and edge types are identical. The recorded separating set of an edge is not order independent.", "quantifier": "every graph, every list of results and every permutation of it", "why_tests_cant": "Schedules of a process pool cannot be enumerated by tests.", "anchors": ["causy/graph_model.py:AbstractGraphModel.execute_pipeline_step", "causy/graph_model.py:AbstractGraphModel._take_action"]}
{"id": "C29", "title": "AllCombinationsGenerator enumerates every node subset of the requested sizes exactly once", "statement": "The generator yields exactly the sub-sequences (in node order) of the node list with size between min and max (max 0 meaning the number of nodes, larger max clipped), each exactly once, and nothing else.", "quantifier": "every node list and every min/max setting", "why_tests_cant": "Combinatorial completeness for all sizes.", "anchors": ["causy/generators.py:AllCombinationsGenerator.generate"]}
{"id": "C30", "title": "PairsWithEdgesInBetweenGenerator yields every live edge exactly once", "statement": "Unchunked, the generator yields each ordered pair with directed_edge_exists exactly once and nothing else. In chunked mode the claim is false: after the chunks every edge is yielded a second time, on its own.", "quantifier": "every graph state and chunk size", "why_tests_cant": "For all graphs.", "anchors": ["causy/generators.py:PairsWithEdgesInBetweenGenerator.generate"]}
{"id": "C31", "title": "PairsWithNeighboursGenerator offers exactly the conditioning sets drawn from the neighbours", "statement": "On any graph, for each size k between the configured bounds and each live edge x->y, the generator offers exactly the subsets S of size k-2 of the nodes that have a live edge to x and an entry in x's row, minus y; each subset once; nothing for non-edges.", "quantifier": "every graph state, all bounds and every set/shuffle order", "why_tests_cant": "PC completeness depends on no conditioning set being missed, for all graphs.", "anchors": ["causy/generators.py:PairsWithNeighboursGenerator.generate"]}
{"id": "C32", "title": "RandomSampleGenerator only drops combinations", "statement": "Whatever the random numbers are, the output of RandomSampleGenerator is a subsequence of the output of the wrapped generator.", "quantifier": "every wrapped output and every stream of random numbers", "why_tests_cant": "All random streams.", "anchors": ["causy/generators.py:RandomSampleGenerator.generate"]}
{"id": "C33", "title": "Every pipeline step runs once, in order, and is recorded", "statement": "If no step raises, executing the pipeline runs each configured step exactly once in order, appends exactly one action-history entry per configured step in that order, and leaves no soft-deleted edge after a non-logic step.", "quantifier": "every list of steps and every initial graph", "why_tests_cant": "All pipelines.", "anchors": ["causy/graph_model.py:AbstractGraphModel.execute_pipeline_steps", "causy/graph_model.py:AbstractGraphModel.execute_pipeline_step_with_progress"]}
{"id": "C34", "title": "The orientation loop of the PC algorithms always terminates", "statement": "On every graph, the Loop with NonColliderTest, FurtherOrientTripleTest, OrientQuadrupleTest, FurtherOrientQuadrupleTest and ExitOnNoActions stops after at most (number of live directed edges + 1) rounds, whatever order Python iterates its sets in; the only exception it can raise is a KeyError when some node never took part in an edge, which cannot happen in the algorithms, where every graph starts complete.", "quantifier": "every graph state and every set iteration order", "why_tests_cant": "Termination for all graphs and hash orders; a test cannot rule out an infinite loop.", "anchors": ["causy/common_pipeline_steps/logic.py:Loop.execute", "causy/common_pipeline_steps/exit_conditions.py:ExitOnNoActions.check", "causy/causal_discovery/constraint/orientation_rules/pc.py:NonColliderTest.process"]}
{"id": "C35", "title": "When the orientation loop stops no orientation rule applies any more", "statement": "After the loop exits normally, none of the loop's four rules proposes an orientation on the resulting graph.", "quantifier": "every graph and every set iteration order", "why_tests_cant": "Fixpoint property over all executions.", "anchors": ["causy/common_pipeline_steps/logic.py:Loop.execute", "causy/causal_discovery/constraint/algorithms/pc.py:PC_ORIENTATION_RULES"]}
{"id": "C36", "title": "ApplyActionsTogether evaluates all inner tests on the same frozen graph", "statement": "Every inner step of ApplyActionsTogether sees exactly the graph as it was at entry, and the graph afterwards is the entry graph with the concatenation of all proposed actions applied in order.", "quantifier": "every list of inner steps and every graph", "why_tests_cant": "All steps and graphs.", "anchors": ["causy/common_pipeline_steps/logic.py:ApplyActionsTogether.execute"]}
{"id": "C37", "title": "Deferred removals are invisible to the next step", "statement": "After ApplyActionsTogether the next step should see removed edges as absent. False of the code: logic steps are not followed by a purge, ColliderTest looks at stored keys including soft-deleted ones, and PCStable can orient an edge of a graph that has no unshielded triple.", "quantifier": "every algorithm run", "why_tests_cant": "Needs a specific combination of steps that unit tests of single steps do not see.", "anchors": ["causy/graph_model.py:AbstractGraphModel.execute_pipeline_step_with_progress", "causy/causal_discovery/constraint/orientation_rules/pc.py:ColliderTest.process", "causy/causal_discovery/constraint/algorithms/pc.py:PCStable"]}
{"id": "C38", "title": "Every missing adjacency is certified by a recorded independence result", "statement": "After the independence-test phase of PC (correlation, partial correlation and extended tests, in any number and order, chunked or not), starting from the complete graph: for each non-adjacent pair x,y the edge history of (x,y) contains a REMOVE_EDGE_UNDIRECTED entry whose separatedBy set S satisfies x,y not in S and the test reported x independent of y given S. Run in the shipped order (correlations, marginal test, then any list of conditional tests) the phase never raises because of missing edges; repeating the marginal test after a removal raises TypeError.", "quantifier": "every independence oracle, every node set and every iteration order", "why_tests_cant": "All data sets (all oracles).", "anchors": ["causy/causal_discovery/constraint/independence_tests/common.py:CorrelationCoefficientTest.process", "causy/causal_discovery/constraint/independence_tests/common.py:PartialCorrelationTest.process", "causy/causal_discovery/constraint/independence_tests/common.py:ExtendedPartialCorrelationTestMatrix.process"]}
{"id": "C39", "title": "The independence-test phase only removes undirected edges", "statement": "During the phase the set of adjacencies only shrinks, stays symmetric (never a one-way edge) and keeps all edge types UNDIRECTED.", "quantifier": "every oracle, node set and iteration order", "why_tests_cant": "All oracles.", "anchors": ["causy/causal_discovery/constraint/independence_tests/common.py:PartialCorrelationTest.process", "causy/causal_discovery/constraint/independence_tests/common.py:ExtendedPartialCorrelationTestMatrix.process"]}
{"id": "C40", "title": "PartialCorrelationTest only acts on complete triangles", "statement": "PartialCorrelationTest proposes a removal for a triple only if all three pairs are adjacent in the graph it looks at; on any other triple of nodes it proposes nothing.", "quantifier": "every graph, every triple and every set of correlation values", "why_tests_cant": "All graphs.", "anchors": ["causy/causal_discovery/constraint/independence_tests/common.py:PartialCorrelationTest.process"]}
{"id": "C41", "title": "ColliderTest proposes an orientation only for unshielded triples whose middle node is outside the separating set", "statement": "On a graph without soft-deleted edges, ColliderTest removes z->x and z->y only if x and y are not undirected-adjacent, both x->z and y->z are stored, and z is in none of the recorded separating sets of x,y; and with no conflicting earlier proposal it proposes the removal for every such z.", "quantifier": "every graph, history and pending action list", "why_tests_cant": "All graphs and histories.", "anchors": ["causy/causal_discovery/constraint/orientation_rules/pc.py:ColliderTest.process"]}
{"id": "C42", "title": "ColliderTest preserves the skeleton under both conflict strategies", "statement": "Running the ColliderTest step with KEEP_FIRST or KEEP_LAST on any undirected skeleton (no soft-deleted edges left, every node has taken part in an edge, recorded removals carry a data dictionary) never raises and never makes two adjacent nodes non-adjacent, no matter how many orientation conflicts occur, nor does it create an adjacency.", "quantifier": "every undirected graph, every history of separating sets and every set iteration order", "why_tests_cant": "Conflicts depend on the interplay of many triples.", "anchors": ["causy/causal_discovery/constraint/orientation_rules/pc.py:ColliderTest.process", "causy/causal_discovery/constraint/orientation_rules/pc.py:generate_restores", "causy/causal_discovery/constraint/orientation_rules/pc.py:filter_unapplied_actions"]}
{"id": "C43", "title": "Orientation rules only orient undirected edges and follow Meek's rules", "statement": "Each removal proposed by NonColliderTest, FurtherOrientTripleTest, OrientQuadrupleTest and FurtherOrientQuadrupleTest concerns an edge that is undirected in the inspected graph and matches the premises of Meek's rule R1, R2, R3 or R4 respectively.", "quantifier": "every graph, every pair and every set iteration order", "why_tests_cant": "All graphs.", "anchors": ["causy/causal_discovery/constraint/orientation_rules/pc.py:NonColliderTest.process", "causy/causal_discovery/constraint/orientation_rules/pc.py:FurtherOrientTripleTest.process", "causy/causal_discovery/constraint/orientation_rules/pc.py:OrientQuadrupleTest.process", "causy/causal_discovery/constraint/orientation_rules/pc.py:FurtherOrientQuadrupleTest.process"]}
{"id": "C44", "title": "Orientation steps never delete an adjacency", "statement": "A NonColliderTest step never makes adjacent nodes non-adjacent, on any graph. For FurtherOrientTripleTest the same holds if the one-way edges contain no directed cycle; for OrientQuadrupleTest and FurtherOrientQuadrupleTest the unconditional claim is false (graphs are given on which an edge disappears), and it holds if the rule's premises never match both directions of an edge.", "quantifier": "every graph and every set iteration order", "why_tests_cant": "Conflicting proposals within one step need specific graphs.", "anchors": ["causy/causal_discovery/constraint/orientation_rules/pc.py:NonColliderTest.process", "causy/causal_discovery/constraint/orientation_rules/pc.py:FurtherOrientTripleTest.process", "causy/causal_discovery/constraint/orientation_rules/pc.py:OrientQuadrupleTest.process"]}
{"id": "C45", "title": "PC recovers the true skeleton from a perfect independence oracle", "statement": "If the independence tests answer exactly d-separation in some DAG over the variables, the skeleton phase of PC (order 0, triples, then extended tests) and of PCClassic ends with x,y adjacent iff they are adjacent in the DAG.", "quantifier": "every finite DAG and every iteration order", "why_tests_cant": "The correctness theorem of the algorithm, over all DAGs.", "anchors": ["causy/causal_discovery/constraint/algorithms/pc.py:PC", "causy/causal_discovery/constraint/algorithms/pc.py:PCClassic", "causy/causal_discovery/constraint/independence_tests/common.py", "causy/generators.py:PairsWithNeighboursGenerator.generate"]}
{"id": "C46", "title": "PC never orients an edge against the true DAG", "statement": "With the same oracle, after ColliderTest and any number of rounds of the orientation loop, every one-way edge of the result is an edge of the DAG in that direction, every unshielded collider of the DAG is oriented, the skeleton is still the skeleton of the DAG, and the loop exits.", "quantifier": "every finite DAG and every iteration order", "why_tests_cant": "Correctness over all DAGs.", "anchors": ["causy/causal_discovery/constraint/algorithms/pc.py:PC", "causy/causal_discovery/constraint/orientation_rules/pc.py"]}
{"id": "C47", "title": "Edge types match the stored structure in PC results", "statement": "In every graph produced by the PC steps (removals only, from the complete undirected graph) a live edge has type DIRECTED if the opposite direction is absent after an orientation and UNDIRECTED iff both directions are live.", "quantifier": "every sequence of removal actions applied to a complete graph", "why_tests_cant": "All executions.", "anchors": ["causy/graph_model.py:AbstractGraphModel._take_action"]}
{"id": "C48", "title": "Pearson correlations are symmetric and within [-1,1]", "statement": "In exact arithmetic the value computed by CalculatePearsonCorrelations is symmetric in the two columns, invariant under positive affine rescaling and lies in [-1,1], so the clamping branch never changes it.", "quantifier": "all real data columns with non-zero variance", "why_tests_cant": "All real vectors.", "anchors": ["causy/common_pipeline_steps/calculation.py:CalculatePearsonCorrelations.process"]}
{"id": "C49", "title": "The triple formula and the precision-matrix formula give the same partial correlation", "statement": "In exact arithmetic the order-1 formula of PartialCorrelationTest equals the value ExtendedPartialCorrelationTestMatrix computes from the inverse covariance matrix for the same three variables, and the diagonal rescaling in the latter cancels for any number of variables.", "quantifier": "every data table with at least two samples and without an exact linear relation between its columns", "why_tests_cant": "All matrices.", "anchors": ["causy/causal_discovery/constraint/independence_tests/common.py:PartialCorrelationTest.process", "causy/causal_discovery/constraint/independence_tests/common.py:ExtendedPartialCorrelationTestMatrix.process"]}
{"id": "C50", "title": "topologic_sort returns a topological order of acyclic models", "statement": "For an acyclic edge list the sort terminates and returns each variable exactly once with every edge's source before its target; for an edge list with a cycle it never terminates.", "quantifier": "every finite edge list", "why_tests_cant": "All graphs; non-termination cannot be tested.", "anchors": ["causy/sample_generator.py:IIDSampleGenerator"]}
{"id": "C51", "title": "Generated samples satisfy the structural equations", "statement": "For an acyclic edge list every generated column equals its own noise plus the sum over incoming edges of coefficient times the finished source column, and the returned graph contains exactly the given edges as one-way edges.", "quantifier": "every acyclic edge list, all coefficients and all noise values", "why_tests_cant": "All models and noise.", "anchors": ["causy/sample_generator.py:IIDSampleGenerator._generate_data", "causy/sample_generator.py:IIDSampleGenerator.generate"]}
{"id": "C52", "title": "Data loading transposes rows to columns without loss", "statement": "create_graph_from_data on a list of rows produces one node per key of the first row whose values are that column in row order; a row lacking a key raises KeyError; dict input yields nodes sorted by key. The node order of list input is the first row's key order, so dict and list input of the same data can differ in node order.", "quantifier": "every list of rows and every dict of columns", "why_tests_cant": "All tables.", "anchors": ["causy/graph_model.py:AbstractGraphModel.create_graph_from_data"]}
{"id": "C53", "title": "Variable validation accepts exactly well-typed declared choices", "statement": "validate_variable_values returns True iff every supplied name is declared and its value has the declared type (bool is not an int, int is not a float) and is among the choices when there are any; otherwise it raises ValueError.", "quantifier": "every algorithm and every dict of values", "why_tests_cant": "All value dictionaries.", "anchors": ["causy/variables.py:validate_variable_values", "causy/variables.py:BaseVariable.validate_value"]}
{"id": "C54", "title": "Resolved variables are user values over defaults", "statement": "resolve_variables returns a value for exactly the declared names: the user's value if given, else the default; undeclared user entries are ignored.", "quantifier": "every list of declarations and every dict", "why_tests_cant": "All inputs.", "anchors": ["causy/variables.py:resolve_variables"]}
{"id": "C55", "title": "Resolving an algorithm leaves no variable reference behind", "statement": "If resolution of a pipeline succeeds then no variable reference remains in any step, nested generator, comparison setting, exit condition or nested logic step, every former reference holds the variable's value, and everything else is unchanged; if a referenced name has no value it raises ValueError.", "quantifier": "every nested pipeline and every environment", "why_tests_cant": "All nesting depths.", "anchors": ["causy/variables.py:resolve_variable_to_object", "causy/variables.py:resolve_variables_to_algorithm_for_pipeline_steps"]}
{"id": "C56", "title": "Unset experiment variables fall back to their defaults at execution", "statement": "The full claim is false: execution hands the experiment's own variables, not the resolved ones, to the model factory, so an experiment that sets only some of the declared variables raises, and one that sets none runs with unresolved references. It holds when the experiment sets all referenced variables.", "quantifier": "every algorithm and experiment", "why_tests_cant": "All combinations of set and unset variables.", "anchors": ["causy/workspaces/cli.py:_execute_experiment", "causy/graph_model.py:graph_model_factory"]}
{"id": "C57", "title": "A step rebuilt from its serialized form behaves like the original", "statement": "Rebuilding a step from its dumped fields keeps every truthy constructor parameter. The full claim is false: falsy parameters (threshold 0, parallel False where the class default is True) and class-specific fields such as conflict_resolution_strategy are dropped by the constructor.", "quantifier": "every step configuration", "why_tests_cant": "All configurations.", "anchors": ["causy/interfaces.py:PipelineStepInterface.__init__", "causy/graph_utils.py:load_pipeline_artefact_by_definition"]}
{"id": "C58", "title": "File references cannot leave the working directory", "statement": "load_algorithm_by_reference only opens files whose absolute path has the working directory as a string prefix; the intended containment is false: a sibling directory whose name extends the working directory's name is accepted.", "quantifier": "every working directory and every path", "why_tests_cant": "All paths.", "anchors": ["causy/serialization.py:load_algorithm_by_reference", "causy/ui/server.py:get_algorithm"]}
{"id": "C59", "title": "Dictionary hashes do not depend on key order", "statement": "The text hashed by hash_dictionary is the same for two dictionaries with the same entries inserted in any order, at every nesting level.", "quantifier": "every nested dictionary and every permutation of keys", "why_tests_cant": "All permutations at all depths.", "anchors": ["causy/graph_utils.py:hash_dictionary"]}
{"id": "C60", "title": "Edge equality ignores orientation exactly for undirected types", "statement": "Equality of edges read back from a result file is an equivalence relation for the standard edge types; two edges of an undirected or bidirected type are equal iff they join the same two nodes in either order, two directed edges iff source and target agree; metadata is ignored. (Edges of a live graph are compared field by field instead, including order and metadata.)", "quantifier": "all edges", "why_tests_cant": "All edges.", "anchors": ["causy/interfaces.py:EdgeInterface.__eq__"]}
{"id": "C61", "title": "Experiments always refer to existing pipelines and data loaders", "statement": "After any sequence of workspace commands (init, add/remove pipeline, data loader, experiment, update variable, clear, execute) every experiment's pipeline and data loader exist in the workspace.", "quantifier": "every command sequence", "why_tests_cant": "All histories.", "anchors": ["causy/workspaces/cli.py:remove_pipeline", "causy/workspaces/cli.py:remove_data_loader", "causy/workspaces/cli.py:_create_experiment", "causy/workspaces/cli.py:init"]}
{"id": "C62", "title": "Result versions of different experiments never mix", "statement": "In a directory containing only result files of the workspace's experiments, listing the versions of an experiment returns exactly the timestamps of its own saved results in descending order, even if one experiment's name is a prefix of another's followed by an underscore. With other files present the listing can raise ValueError.", "quantifier": "every set of experiment names, timestamps and directory listings", "why_tests_cant": "All names, including names with underscores and digits.", "anchors": ["causy/workspaces/cli.py:_load_experiment_versions", "causy/workspaces/cli.py:_save_experiment_result"]}
{"id": "C63", "title": "The latest result is the last one saved", "statement": "For any history of saves with non-decreasing clock, loading the latest result of an experiment returns the content of its most recent save, regardless of other experiments' saves; clearing an experiment removes all of its results and none of another experiment's.", "quantifier": "every history of saves and clears", "why_tests_cant": "All histories.", "anchors": ["causy/workspaces/cli.py:_load_latest_experiment_result", "causy/workspaces/cli.py:_clear_experiment"]}
{"id": "C64", "title": "An experiment is skipped only if nothing it depends on changed", "statement": "execute skips an experiment only if re-execution is not forced and the stored hashes of variables, algorithm and data equal the current ones; and right after a successful execution with unchanged inputs it is skipped.", "quantifier": "every workspace state and every stored result", "why_tests_cant": "All states.", "anchors": ["causy/workspaces/cli.py:_experiment_needs_reexecution", "causy/workspaces/cli.py:execute"]}
{"id": "C65", "title": "Updating an experiment variable stores a well-typed value or nothing", "statement": "update-variable stores a value only if it has the declared type and is an allowed choice; in every other case the workspace is unchanged. The intuitive claim that the text false stores False is false: any non-empty text is stored as True.", "quantifier": "every variable declaration and every text", "why_tests_cant": "All strings.", "anchors": ["causy/workspaces/cli.py:update_experiment_variable"]}
{"id": "C66", "title": "The UI server picks the first free port", "statement": "Without PORT set the server uses the smallest port >= 8000 not in use, and raises ValueError iff all ports 8000..65535 are in use.", "quantifier": "every set of used ports", "why_tests_cant": "All port occupancies.", "anchors": ["causy/ui/server.py:server"]}
{"id": "C67", "title": "The independence decision is a two-sided test", "statement": "In exact arithmetic the decision of the independence tests is defined iff the correlation is strictly between -1 and 1 and there are at least (number of conditioning nodes + 3) samples; it then says independent iff the absolute Fisher z score is below the quantile of 1 - threshold/2. The sign of the correlation does not matter, and weakening the correlation, dropping samples, adding conditioning nodes or lowering the threshold never turns independent into dependent.", "quantifier": "every threshold, sample size, number of conditioning nodes and correlation; every strictly increasing (monotone) distribution function", "why_tests_cant": "All real values.", "anchors": ["causy/causal_discovery/constraint/independence_tests/common.py:CorrelationCoefficientTest.process", "causy/causal_discovery/constraint/independence_tests/common.py:PartialCorrelationTest.process", "causy/causal_discovery/constraint/independence_tests/common.py:ExtendedPartialCorrelationTestMatrix.process"]}
{"id": "C68", "title": "The matrix test does not depend on node order or units", "statement": "In exact arithmetic the outcome of ExtendedPartialCorrelationTestMatrix for a pair of nodes given a conditioning set is the same whichever of the two comes first, in whatever order the conditioning nodes are listed, and after shifting and rescaling (also with negative factors) any of the columns. With at least (number of conditioning nodes + 3) samples its numerical part never raises, and it returns no result iff the columns satisfy an exact linear relation.", "quantifier": "every data table with at least two samples, every ordering and every affine rescaling", "why_tests_cant": "All data tables, permutations and factors.", "anchors": ["causy/causal_discovery/constraint/independence_tests/common.py:ExtendedPartialCorrelationTestMatrix.process"]}
{"id": "C69", "title": "Generated time series satisfy their equations", "statement": "If all edges of a TimeseriesSampleGenerator point to the past, then for every iteration order of the variable set generate succeeds, every value at a time t >= 1 is the sum over the incoming edges of coefficient times the source value lag steps earlier (the initial value if that is before the start) plus its own noise, and the returned graph contains exactly these dependencies as one-way edges that lead forward in time. With an edge of lag 0 the outcome depends on the iteration order and may be an IndexError.", "quantifier": "every edge list, initial values, noise, number of time steps and iteration order", "why_tests_cant": "All models, sizes and orders of a hash set.", "anchors": ["causy/sample_generator.py:TimeseriesSampleGenerator._generate_data", "causy/sample_generator.py:TimeseriesSampleGenerator.generate"]}
{"id": "C70", "title": "Data loader hashes identify file content and options", "statement": "Loading a json or jsonl reference always succeeds and its hash, given collision-free digests, equals that of another one iff the bytes of the two files and the options agree (path and type play no role); a missing file is reported by hash. A reference of type dynamic can never be loaded: it raises ImportError or, if the module exists, TypeError.", "quantifier": "every reference, file content, option dictionary and set of importable modules", "why_tests_cant": "All pairs of files and options; a test compares a few hashes.", "anchors": ["causy/data_loader.py:load_data_loader", "causy/data_loader.py:FileDataLoader.hash", "causy/data_loader.py:DynamicDataLoader.__init__"]}
{"id": "C71", "title": "Variable references survive loading a pipeline", "statement": "Loading a pipeline definition replaces every dumped variable reference reachable from the step by a reference object and changes nothing else. It succeeds iff no reachable object forms a cycle and every reachable object that holds objects or references accepts assignments; in particular a step that holds a member of an enumeration (such as ColliderTest) can never be loaded.", "quantifier": "every graph of python objects reachable from a step, every recursion limit", "why_tests_cant": "All object graphs, including class objects reached by accident.", "anchors": ["causy/variables.py:deserialize_variable_references", "causy/graph_utils.py:load_pipeline_steps_by_definition"]}
{"id": "C72", "title": "The UI server only serves algorithms below the working directory", "statement": "For a file reference the algorithm endpoint either answers 400 or opens a path below the working directory, provided no symbolic links are involved; references without leading slash and without two consecutive dots are never rejected by the path checks. With symbolic links the resolved path still has to pass the prefix check.", "quantifier": "every working directory and every reference string", "why_tests_cant": "All strings.", "anchors": ["causy/ui/server.py:get_algorithm", "causy/serialization.py:load_algorithm_by_reference"]}
{"id": "C73", "title": "Algorithms loaded from a file cannot carry edge types", "statement": "If an algorithm is dumped and loaded again, its edge types come back as plain dictionaries; building a model from it raises AttributeError iff it had at least one edge type.", "quantifier": "every algorithm that can be dumped and loaded", "why_tests_cant": "All algorithms.", "anchors": ["causy/serialization.py:load_algorithm_from_specification", "causy/graph_model.py:graph_model_factory"]}
{"id": "C74", "title": "Executing everything gives each experiment its own result", "statement": "If execute succeeds on all experiments of a workspace, it touches only result files of these experiments, and for each experiment that it does not skip it stores what executing that experiment alone stores.", "quantifier": "every workspace, directory and world outside (data, pipelines, clock)", "why_tests_cant": "All sets of experiments that share pipelines; interference only shows for particular combinations.", "anchors": ["causy/workspaces/cli.py:execute", "causy/workspaces/cli.py:_execute_experiment", "causy/serialization.py:load_algorithm_by_reference", "causy/graph_model.py:graph_model_factory"]}
{"id": "C75", "title": "Comparing results shows every difference once", "statement": "diff resolves each argument to the newest result of an experiment or to a given version of it. It shows exactly one row per pair of node names joined by an edge in some compared result, with each result's first edge between them; with only-differences it leaves out exactly the pairs on which all results have equal edges; a warning is printed iff one result has two different edges between a pair.", "quantifier": "every list of results with any edges, every directory and name", "why_tests_cant": "All edge lists, edge orders and names with underscores.", "anchors": ["causy/workspaces/cli.py:diff"]}
{"id": "C76", "title": "The UI serves the right version of a result", "statement": "The latest endpoint answers 404 without a workspace or for an unknown experiment, 400 if it has no result, and else the newest result with its own version number; the version endpoint answers exactly the result of the given second of the given experiment or 400; the list contains all experiments in workspace order with their own versions, newest first.", "quantifier": "every workspace and every directory of result files", "why_tests_cant": "All directories and names.", "anchors": ["causy/ui/server.py:get_latest_experiment", "causy/ui/server.py:get_experiment", "causy/ui/server.py:get_experiments"]}
{"id": "C77", "title": "Steps run in the worker pool always end", "statement": "A step executed in the pool of worker processes with a positive batch size makes finitely many moves under every schedule and never deadlocks: it can always be completed to a result or an exception. With batch size zero it raises ValueError and leaves the graph alone.", "quantifier": "every pipeline step, graph, batch size and interleaving of feeder, workers and main process", "why_tests_cant": "All schedules.", "anchors": ["causy/graph_model.py:Model._execute_pipeline_step", "causy/graph_model.py:unpack_run"]}
{"id": "C78", "title": "One batch in the pool equals running in the main process", "statement": "If all combinations a step generates fit into one batch, the pool has exactly one outcome, the one of running the step in the main process: same graph, same recorded actions, same exception.", "quantifier": "every step, graph, batch size and schedule", "why_tests_cant": "All schedules.", "anchors": ["causy/graph_model.py:Model._execute_pipeline_step"]}
{"id": "C79", "title": "No schedule makes the graph inconsistent", "statement": "After a step in the pool, whatever it proposes, whatever the schedule, also after an exception, the graph is one that a sequence of GraphManager edits produces.", "quantifier": "every step, graph, batch size, schedule and outcome", "why_tests_cant": "All schedules and exceptions.", "anchors": ["causy/graph_model.py:Model._execute_pipeline_step", "causy/graph_model.py:Model._take_action"]}
{"id": "C80", "title": "The recorded actions of a parallel step can be replayed", "statement": "For every schedule the actions recorded as taken by a finished parallel step are among its proposals in the same order, and taking just them one by one in the recorded order leads from the graph before to the graph after.", "quantifier": "every step, graph, batch size and schedule", "why_tests_cant": "All schedules.", "anchors": ["causy/graph_model.py:Model._execute_pipeline_step", "causy/graph_model.py:Model._take_action"]}
{"id": "C81", "title": "A parallel step evaluates every combination exactly once", "statement": "A finished parallel step has evaluated each combination the generator handed out exactly once, on a graph to which an initial part of the recorded actions has been applied, and it records exactly the answers of these evaluations.", "quantifier": "every step, graph, batch size and schedule", "why_tests_cant": "All schedules.", "anchors": ["causy/graph_model.py:Model._execute_pipeline_step", "causy/graph_model.py:unpack_run"]}
{"id": "C82", "title": "Removals in the pool are certified under every schedule", "statement": "Independence-test steps run in the main process or in the pool, with random sampling and any batch sizes: nodes stay, all edges stay undirected and symmetric, none is added, and each adjacency that is gone has a removal in its history with a set of other variables given which the test called the two independent.", "quantifier": "every test, node set, list of steps, batch size, sampling, schedule and outcome", "why_tests_cant": "All schedules.", "anchors": ["causy/causal_discovery/constraint/algorithms/pc.py:ParallelPC", "causy/causal_discovery/constraint/independence_tests/common.py:PartialCorrelationTest", "causy/causal_discovery/constraint/independence_tests/common.py:ExtendedPartialCorrelationTestMatrix", "causy/generators.py:RandomSampleGenerator"]}
{"id": "C83", "title": "No schedule of ParallelPC loses a true adjacency", "statement": "With a perfect independence oracle for a DAG no schedule of test steps in the pool removes an adjacency of the DAG, also if the run is cut off by an exception, and the skeleton phase of ParallelPC never raises for positive batch sizes.", "quantifier": "every DAG, oracle, batch size, schedule, set order, shuffle and sample", "why_tests_cant": "All DAGs and schedules.", "anchors": ["causy/causal_discovery/constraint/algorithms/pc.py:ParallelPC"]}
{"id": "C84", "title": "ParallelPC recovers the skeleton under every schedule", "statement": "With a perfect independence oracle for a DAG the skeleton phase of ParallelPC ends with exactly the adjacencies of the DAG, whatever the schedule.", "quantifier": "every DAG, oracle, schedule, set order, shuffle and sample", "why_tests_cant": "All DAGs and schedules; a spurious edge needs more than one batch, so at least 68 variables with the shipped sizes.", "anchors": ["causy/causal_discovery/constraint/algorithms/pc.py:ParallelPC"]}
{"id": "C85", "title": "ParallelPC orients correctly under every schedule", "statement": "With a perfect independence oracle for a DAG, from nodes without removal history, ParallelPC has exactly the adjacencies of the DAG, every one-way edge points as in the DAG, every unshielded collider is oriented, it does not raise and ends closed under the four Meek rules, whatever the schedule.", "quantifier": "every DAG, oracle, schedule, set order, shuffle and sample", "why_tests_cant": "All DAGs and schedules.", "anchors": ["causy/causal_discovery/constraint/algorithms/pc.py:ParallelPC", "causy/causal_discovery/constraint/orientation_rules/pc.py:ColliderTest"]}
{"id": "C86", "title": "PCStable finds the same skeleton in every order", "statement": "For independence tests that never raise, always decide and do not depend on the order of their arguments - also ones that contradict each other - the test phase of PCStable ends without exception with two variables adjacent exactly if no set of other variables is reported to separate them; so the order of the variables and of all sets iterated does not matter.", "quantifier": "every such test, set of variables, order of the variables and set order", "why_tests_cant": "All tests and all orders.", "anchors": ["causy/causal_discovery/constraint/algorithms/pc.py:PCStable", "causy/common_pipeline_steps/logic.py:ApplyActionsTogether", "causy/causal_discovery/constraint/independence_tests/common.py:ExtendedPartialCorrelationTestMatrix"]}
{"id": "C87", "title": "PCStable recovers the skeleton", "statement": "With a perfect independence oracle for a DAG the test phase of PCStable ends with exactly the adjacencies of the DAG.", "quantifier": "every DAG, oracle and set order", "why_tests_cant": "All DAGs.", "anchors": ["causy/causal_discovery/constraint/algorithms/pc.py:PCStable"]}
{"id": "C88", "title": "PCStable orients correctly", "statement": "With a perfect independence oracle for a DAG, from nodes without removal history, PCStable has exactly the adjacencies of the DAG, every one-way edge points as in the DAG, every unshielded collider is oriented, it does not raise and ends closed under the four Meek rules.", "quantifier": "every DAG, oracle and set order", "why_tests_cant": "All DAGs.", "anchors": ["causy/causal_discovery/constraint/algorithms/pc.py:PCStable", "causy/causal_discovery/constraint/orientation_rules/pc.py:ColliderTest"]}
{"id": "C89", "title": "Direct effects are regression coefficients and change nothing else", "statement": "On every graph whose variables have values (of one length), the direct-effects step succeeds and adds to each one-way edge a -> b the weight of a in the least-squares regression of b on all variables with an edge into b (the shortest solution if there are several, which is unique); nodes, edges, edge types, all other metadata and the removal records stay. Appended to any algorithm it changes nothing but these effects; if an end of a one-way edge has no values it raises.", "quantifier": "every graph produced by edits without one-way hard removals, every data set and every algorithm", "why_tests_cant": "All graphs and data sets, including collinear ones.", "anchors": ["causy/causal_effect_estimation/multivariate_regression.py:ComputeDirectEffectsInDAGsMultivariateRegression", "causy/graph.py:parents_of_node"]}
{"id": "C90", "title": "Direct effects recover structural coefficients", "statement": "If the values of b are a linear combination of the variables with an edge into b plus noise, the effect on a -> b is the coefficient of a plus its weight in the regression of the noise; it is exactly the coefficient if these variables are linearly independent and the noise is orthogonal to them. On the graph and data of the sample generator this holds for every edge with the coefficients the user gave.", "quantifier": "every graph, coefficients, noise, number of observations and acyclic list of edges", "why_tests_cant": "All linear models and all noise.", "anchors": ["causy/causal_effect_estimation/multivariate_regression.py:ComputeDirectEffectsInDAGsMultivariateRegression", "causy/sample_generator.py:IIDSampleGenerator.generate"]}
{"id": "C91", "title": "Direct effects depend on the scales only through their units", "statement": "Changing the unit of every variable (x becomes s*x) multiplies the effect on a -> b by s_b / s_a, and moving the origin of a scale (x becomes x + d) leaves it unchanged.", "quantifier": "every graph, data set with linearly independent parents, units and origins", "why_tests_cant": "All data sets and scales.", "anchors": ["causy/causal_effect_estimation/multivariate_regression.py:ComputeDirectEffectsInDAGsMultivariateRegression"]}
{"id": "C92", "title": "PC reports the structural coefficients", "statement": "With a perfect independence oracle for a DAG over data from linear equations along the DAG, the effect that PC and PCClassic report for a one-way edge a -> b is the coefficient of a in the equation of b, up to the regression of the noise on the parents of b.", "quantifier": "every DAG, oracle, set order, coefficients, noise and number of observations", "why_tests_cant": "All DAGs and data sets.", "anchors": ["causy/causal_discovery/constraint/algorithms/pc.py:PC", "causy/causal_discovery/constraint/algorithms/pc.py:PCClassic", "causy/causal_effect_estimation/multivariate_regression.py:ComputeDirectEffectsInDAGsMultivariateRegression"]}
{"id": "C93", "title": "With perfect tests the result is all the tests can tell", "statement": "When the independence tests are perfect for some DAG, a completed run of PC or PCClassic leaves a -> b exactly if every DAG that fits the tests has the edge a -> b, and an undirected edge a - b exactly if some fitting DAG has a -> b and another has b -> a. Fitting DAGs are those with the same adjacencies and the same unshielded colliders as the true one.", "quantifier": "every DAG, perfect test, set order and number of variables", "why_tests_cant": "A claim about all DAGs over any number of variables, and about all equivalent DAGs at once.", "anchors": ["causy/causal_discovery/constraint/algorithms/pc.py:PC", "causy/causal_discovery/constraint/algorithms/pc.py:PCClassic", "causy/causal_discovery/constraint/orientation_rules/pc.py:ColliderTest", "causy/causal_discovery/constraint/orientation_rules/pc.py:FurtherOrientQuadrupleTest"]}
{"id": "C94", "title": "With perfect tests the result does not depend on any order", "statement": "When the independence tests are perfect for some DAG, the edges of the result are the same whichever of PC and PCClassic runs, in whatever order the variables were added and whatever order sets are iterated in. ParallelPC ends with the same edges in every schedule as long as the triples of variables fit into one batch.", "quantifier": "every DAG, perfect test, pair of variable orders, pair of set orders, schedule", "why_tests_cant": "All orders and schedules.", "anchors": ["causy/causal_discovery/constraint/algorithms/pc.py:PC", "causy/causal_discovery/constraint/algorithms/pc.py:PCClassic", "causy/causal_discovery/constraint/algorithms/pc.py:ParallelPC"]}
{"id": "C95", "title": "Hooks that only watch change nothing", "statement": "If the hooks of the edge types leave the graph alone (they may raise, and do anything outside the graph) and the update hooks of the algorithm leave the graph and the proposals alone and do not raise, every run ends with the same outcome, graph and history as without hooks.", "quantifier": "every pipeline, starting graph, and collection of such hooks", "why_tests_cant": "All hooks and pipelines; a test has only the hooks it defines.", "anchors": ["causy/graph_model.py:_execute_hook", "causy/graph_model.py:_take_action", "causy/graph_model.py:execute_pipeline_steps", "causy/interfaces.py:EdgeTypeInterface", "causy/interfaces.py:GraphUpdateHook"]}
{"id": "C96", "title": "Which hooks of edge types are called", "statement": "Applying a batch of actions calls, around every action that is applied, the pre- and the post-hook of the type the stored edge has at that time, in order and with that action, and calls none for actions that are skipped, that restore an edge, or in a dry run. If an action raises, its pre-hook was called and nothing afterwards. The hook after a change of type is never called.", "quantifier": "every graph, batch of actions and hooks that leave the graph alone", "why_tests_cant": "All batches; the calls depend on what earlier actions of the batch did.", "anchors": ["causy/graph_model.py:_execute_hook", "causy/graph_model.py:_take_action", "causy/interfaces.py:EdgeTypeInterface"]}
{"id": "C97", "title": "Pre-update hooks rewrite what the steps propose", "statement": "A run with pre-update hooks that replace every list of proposals l by f(l) ends, with the same outcome, graph and history, as the run without hooks of steps that propose f(l) where they proposed l.", "quantifier": "every pipeline, starting graph and function f", "why_tests_cant": "All rewriting functions and pipelines.", "anchors": ["causy/graph_model.py:_execute_pre_graph_update_hooks", "causy/graph_model.py:_take_action", "causy/common_pipeline_steps/logic.py:ApplyActionsTogether"]}
{"id": "C98", "title": "Post-update hooks are told what the history lists", "statement": "During a run that ends without an error a post-update hook is told, in order and once each, exactly the actions which the history entries of that run list as taken.", "quantifier": "every pipeline and starting graph", "why_tests_cant": "All pipelines, with loops and any number of rounds.", "anchors": ["causy/graph_model.py:_execute_post_graph_update_hooks", "causy/graph_model.py:_take_action", "causy/common_pipeline_steps/logic.py:ApplyActionsTogether"]}
{"id": "C99", "title": "Initial values of a time series have the stationary variance", "statement": "For a stable time-series model whose edges all point to the past, no two with the same source, target and lag, the scales of the distributions from which the initial values are drawn are numbers, at least 1, and each equals the standard deviation the variable has in every steady series of the model; such series exist. A model is stable if without noise every series tends to zero; a series is steady if moving on by one step changes no covariance of the last values.", "quantifier": "every stable model with any number of variables and lags, every set order, every steady series", "why_tests_cant": "All models; the claim is about an infinite matrix series and about probability distributions.", "anchors": ["causy/sample_generator.py:TimeseriesSampleGenerator"]}
{"id": "C100", "title": "Generated time series have the same variance at all times", "statement": "For a stable model with distinct edges to the past, every variable of the generated series has at every time the variance with which its initial value was drawn.", "quantifier": "every stable model, length of the series, time and distribution of the draws with uncorrelated initial values and noise", "why_tests_cant": "All models and times; a test sees samples, not variances.", "anchors": ["causy/sample_generator.py:TimeseriesSampleGenerator"]}
{"id": "C101", "title": "Generated time series settle at the stationary variance", "statement": "For a stable model with distinct edges to the past, whatever its lags, the variance of every variable of the generated series tends with time to the square of the scale of its initial value: for every tolerance there is a time after which no series of any length is off by more.", "quantifier": "every stable model, tolerance, length of the series and distribution of the draws with uncorrelated initial values and noise", "why_tests_cant": "A limit statement about all models.", "anchors": ["causy/sample_generator.py:TimeseriesSampleGenerator"]}
{"id": "C102", "title": "Separated variables of a linear model pass the tests", "statement": "If data come from linear equations along a DAG and the noise columns are uncorrelated in the sample, two variables that are d-separated by others have partial correlation exactly zero given these, and each of the three tests PC uses reports them independent at every threshold below one, given enough observations for the test to be defined.", "quantifier": "every acyclic linear model, noise, number of variables and observations, pair of variables and conditioning set", "why_tests_cant": "All models and data sets; the link between paths in a graph and numbers is a theorem, not an observation.", "anchors": ["causy/causal_discovery/constraint/independence_tests/common.py:CorrelationCoefficientTest", "causy/causal_discovery/constraint/independence_tests/common.py:PartialCorrelationTest", "causy/causal_discovery/constraint/independence_tests/common.py:ExtendedPartialCorrelationTestMatrix", "causy/sample_generator.py:IIDSampleGenerator"]}
{"id": "C103", "title": "PC recovers linear models from their data", "statement": "On data from linear equations along a DAG, with noise columns that vary and are uncorrelated in the sample, with more observations than variables, and if the test statistic of every pair that is not d-separated reaches the critical value of the threshold, PC and PCClassic run without error, and the result has exactly the adjacencies of the DAG and directs exactly the edges that all equivalent DAGs direct alike. Without the last condition the result can contain a reversed edge.", "quantifier": "every acyclic linear model, noise, set order, threshold below one, number of variables and observations", "why_tests_cant": "The numerical tests, the search and the orientation rules together, for all models.", "anchors": ["causy/causal_discovery/constraint/algorithms/pc.py:PC", "causy/causal_discovery/constraint/algorithms/pc.py:PCClassic", "causy/causal_discovery/constraint/independence_tests/common.py:CorrelationCoefficientTest", "causy/causal_discovery/constraint/independence_tests/common.py:PartialCorrelationTest", "causy/causal_discovery/constraint/independence_tests/common.py:ExtendedPartialCorrelationTestMatrix", "causy/sample_generator.py:IIDSampleGenerator"]}
{"id": "C104", "title": "The recovered graph is robust against small changes of the data", "statement": "If in addition the test statistics of all dependent pairs exceed the critical value by a margin, there is a distance such that PC and PCClassic return the same graph on every data set all of whose entries are within that distance of the ideal data.", "quantifier": "every acyclic linear model with visible dependences, and every data set near its data", "why_tests_cant": "A whole neighbourhood of data sets, each with infinitely many members.", "anchors": ["causy/causal_discovery/constraint/algorithms/pc.py:PC", "causy/causal_discovery/constraint/algorithms/pc.py:PCClassic", "causy/causal_discovery/constraint/independence_tests/common.py:CorrelationCoefficientTest", "causy/causal_discovery/constraint/independence_tests/common.py:PartialCorrelationTest", "causy/causal_discovery/constraint/independence_tests/common.py:ExtendedPartialCorrelationTestMatrix"]}
{"id": "C105", "title": "The regression test decides by the partial correlation", "statement": "The regression-based test reports two variables independent given others exactly if the t statistic of their partial correlation given these is below the critical value; on data from linear equations with noise uncorrelated in the sample it reports d-separated variables independent.", "quantifier": "every data set without linear relations, pair of variables and nonempty conditioning set", "why_tests_cant": "All data sets; a test has a few.", "anchors": ["causy/causal_discovery/constraint/independence_tests/common.py:ExtendedPartialCorrelationTestLinearRegression", "causy/causal_discovery/constraint/independence_tests/common.py:partial_correlation_regression", "causy/math_utils.py:get_t_and_critical_t"]}
{"id": "C106", "title": "A constant variable is never reported independent", "statement": "If a variable has the same value in all samples, none of the correlation-based tests involving it reports independence, neither as one of the two variables nor as a conditioning variable. After any sequence of such tests on the fully connected graph the variable is still connected to every other variable, and every removed edge has a recorded removal whose separating set does not contain it.", "quantifier": "every data set with a constant column, every sequence of independence-test steps", "why_tests_cant": "Depends on NaN comparisons through whole pipelines; all data sets and settings.", "anchors": ["causy/causal_discovery/constraint/independence_tests/common.py:CorrelationCoefficientTest", "causy/causal_discovery/constraint/independence_tests/common.py:PartialCorrelationTest", "causy/causal_discovery/constraint/independence_tests/common.py:ExtendedPartialCorrelationTestMatrix"]}
{"id": "C107", "title": "The FCI collider rule marks arrowheads and changes nothing else", "statement": "On a graph without soft-deleted edges whose recorded removals carry data, the FCI collider rule never raises and keeps nodes, connections and edge types. It gives the metadata {edge_type: None} to exactly those edges from a to z for which some b, not connected with a by an undirected edge, has an edge to z too and z is in no separating set recorded for a and b. All other edges keep their metadata. The order of iteration over sets does not matter.", "quantifier": "every such graph and every iteration order", "why_tests_cant": "All graphs and all set orders; a test has one graph and one order.", "anchors": ["causy/causal_discovery/constraint/orientation_rules/fci.py:ColliderRuleFCI", "causy/graph_model.py:_take_action"]}
{"id": "C108", "title": "The FCI collider rule finds the unshielded colliders", "statement": "With tests that answer by d-separation in a DAG, the tests of PC or PCClassic followed by the FCI collider rule run without exception. The result connects exactly the nodes adjacent in the DAG, all by undirected edges. The edge from a to b is marked exactly if the DAG has an unshielded collider a -> b <- c, and all other edges keep their correlation.", "quantifier": "every DAG, every set of variables, every iteration order", "why_tests_cant": "Ranges over all DAGs.", "anchors": ["causy/causal_discovery/constraint/orientation_rules/fci.py:ColliderRuleFCI", "causy/causal_discovery/constraint/algorithms/pc.py:PC", "causy/causal_discovery/constraint/algorithms/pc.py:PCClassic"]}
{"id": "C109", "title": "inducing_path_exists decides whether there is an inducing path", "statement": "inducing_path_exists(u, v) returns True exactly if there is a directed path from u to v on which every node between is a collider, and False otherwise.", "quantifier": "every graph and pair of nodes", "why_tests_cant": "All graphs; paths of every length.", "anchors": ["causy/causal_discovery/constraint/algorithms/fci.py:InducingPathExtension"]}
{"id": "C110", "title": "Data from the sample generator lead PC back to the sample graph", "statement": "Generate data with IIDSampleGenerator, load them with create_graph_from_data (as the dictionary of columns or as the list of rows) and run PC or PCClassic. If the noise columns vary and are uncorrelated in the sample, there are more samples than variables and no dependence is hidden from the tests at the configured threshold, nothing raises. The result has exactly the adjacencies of the graph that the generator returned with the data, and its arrows are exactly the edges of that graph that every equivalent DAG directs in the same way.", "quantifier": "every list of edges the generator accepts, all draws of this kind, every threshold below one, both ways of loading, every iteration order", "why_tests_cant": "Ranges over all graphs, coefficients and draws, through three components.", "anchors": ["causy/sample_generator.py:IIDSampleGenerator", "causy/graph_model.py:create_graph_from_data", "causy/causal_discovery/constraint/algorithms/pc.py:PC", "causy/causal_discovery/constraint/algorithms/pc.py:PCClassic"]}
{"id": "C111", "title": "PC on generated data tolerates small errors in the draws", "statement": "In the situation of C110 with all dependences visible by a margin, there is a distance such that every sequence of draws closer than this to the ideal one leads, through generation, loading and PC or PCClassic, to the same result without an exception.", "quantifier": "every list of edges the generator accepts, all draws near suitable ones", "why_tests_cant": "A statement about a neighbourhood of real-valued inputs.", "anchors": ["causy/sample_generator.py:IIDSampleGenerator", "causy/graph_model.py:create_graph_from_data", "causy/causal_discovery/constraint/algorithms/pc.py:PC", "causy/causal_discovery/constraint/algorithms/pc.py:PCClassic"]}
{"id": "C112", "title": "causy execute runs the chosen model on the columns of the data file", "statement": "Without a pipeline file and an algorithm name, `causy execute` raises ValueError; a pipeline file takes precedence over an algorithm name; an unknown algorithm name raises KeyError. Otherwise, if the data file can be read and no step raises, the command succeeds. The result names the chosen model and has the columns of the file as nodes, each edge of the final graph exactly once, and one history entry per step of the model, in their order.", "quantifier": "every combination of options, data file and model, including models with parallel steps under every schedule", "why_tests_cant": "Ranges over all models, files and schedules.", "anchors": ["causy/cli.py:execute", "causy/graph_model.py:create_graph_from_data", "causy/graph_model.py:execute_pipeline_steps", "causy/graph.py:retrieve_edges"]}
{"id": "C113", "title": "causy execute shows the edges it saves", "statement": "The edges that `causy execute` prints are exactly the edges of the result it writes, in the same order.", "quantifier": "every combination of options, data file and model for which the command succeeds", "why_tests_cant": "Depends on what the last step leaves behind, for all models and graphs.", "anchors": ["causy/cli.py:execute", "causy/graph_utils.py:retrieve_edges", "causy/graph.py:retrieve_edges"]}
{"id": "C114", "title": "PC with all its steps learns the graph and the coefficients", "statement": "Run PC or PCClassic with all their steps on data from linear equations along a DAG. If the noise columns average to zero, vary and are uncorrelated in the sample, there are more samples than variables and no dependence is hidden from the tests at the configured threshold, nothing raises. The result has exactly the adjacencies of the DAG, its arrows are exactly the edges that every equivalent DAG directs in the same way, and each arrow into a variable without undirected edges carries as direct effect the sum of the coefficients that its source has in the equation of its target. In particular this holds for data from IIDSampleGenerator, loaded in either way, whose draws are of this kind.", "quantifier": "all DAGs, coefficients and data of this kind, every threshold below one, every iteration order", "why_tests_cant": "Ranges over all graphs and real-valued data.", "anchors": ["causy/causal_discovery/constraint/algorithms/pc.py:PC", "causy/causal_discovery/constraint/algorithms/pc.py:PCClassic", "causy/causal_effect_estimation/multivariate_regression.py:ComputeDirectEffectsInDAGsMultivariateRegression:ComputeDirectEffectsInDAGsMultivariateRegression", "causy/sample_generator.py:IIDSampleGenerator"]}
{"id": "C115", "title": "ParallelPC with all its steps learns the graph and the coefficients in every schedule", "statement": "On the data of C114, ParallelPC with all its steps ends without an exception and with the result described there, in whatever order its worker processes deliver their results and whatever its random generators draw, provided the triples of variables fit into one batch.", "quantifier": "all DAGs, coefficients and data of this kind, every schedule, all random choices", "why_tests_cant": "Ranges over all schedules and real-valued data.", "anchors": ["causy/causal_discovery/constraint/algorithms/pc.py:ParallelPC", "causy/causal_effect_estimation/multivariate_regression.py:ComputeDirectEffectsInDAGsMultivariateRegression:ComputeDirectEffectsInDAGsMultivariateRegression", "causy/graph_model.py:execute_pipeline_step"]}
{"id": "C116", "title": "Recorded history entries keep their content", "statement": "During a run, an entry of the action history, or of the recorded history of a pair of nodes, keeps its position, nodes, action and data until the end.", "quantifier": "every pipeline of shipped steps, every two points of a run, every entry", "why_tests_cant": "Entries refer to dictionaries that later steps may change; a statement about all pairs of points of all runs.", "anchors": ["causy/graph_model.py:_take_action", "causy/common_pipeline_steps/calculation.py:CalculatePearsonCorrelations", "causy/causal_effect_estimation/multivariate_regression.py:ComputeDirectEffectsInDAGsMultivariateRegression:ComputeDirectEffectsInDAGsMultivariateRegression", "causy/graph.py:add_edge_history"]}
{"id": "C117", "title": "Sharing of metadata dictionaries does not affect what is learned", "statement": "Both directions of an edge, the recorded history and the action history may hold the same metadata dictionary, and two steps write into it. Still the same exceptions arise, and nodes, edges, edge types and edge metadata are the same, as if every place had its own copy; so are all records, apart from the keys these two steps write into the data of metadata updates.", "quantifier": "every pipeline that consists of the shipped tests and rules between the correlation step and the effect step (PC, PCClassic, PCStable and variants), every data set, every iteration order", "why_tests_cant": "Aliasing depends on the whole history of a run; all runs.", "anchors": ["causy/graph.py:update_edge", "causy/graph.py:update_directed_edge", "causy/graph_model.py:_take_action", "causy/common_pipeline_steps/calculation.py:CalculatePearsonCorrelations", "causy/causal_effect_estimation/multivariate_regression.py:ComputeDirectEffectsInDAGsMultivariateRegression:ComputeDirectEffectsInDAGsMultivariateRegression"]}
{"id": "C118", "title": "Creating graph models never takes query methods away from graphs", "statement": "graph_model_factory adds the access mixins of an algorithm's edge types and extensions to the one graph class of the process. After any history of calls, whether or not some raised, a query method exists on every graph exactly if the original class or a mixin of a successful call provides it, and other names raise AttributeError; later calls never remove one. If no mixin inherits from another, no call raises. With PC present (importing the orientation rules creates it) the rules always find only_directed_edge_exists; the manager that create_graph_from_data returns never has it.", "quantifier": "all histories of factory calls, all algorithms, every iteration order of the set of base classes", "why_tests_cant": "The outcome depends on all earlier calls in the process and on the order of a set of classes.", "anchors": ["causy/graph_model.py:graph_model_factory", "causy/graph.py:Graph", "causy/graph.py:GraphManager", "causy/edge_types.py:DirectedEdge.GraphAccessMixin", "causy/interfaces.py:EdgeTypeInterface.GraphAccessMixin"]}
{"id": "C119", "title": "Which implementation of a query a graph uses does not depend on other graph models", "statement": "The query methods of a model's graph, and whether creating the model succeeds, depend only on its own algorithm. False of the code in general: base classes accumulate over all models in the order of a set, so another algorithm's mixin may replace a method, a mixin that inherits from another one makes creation fail in some orders, and methods of undeclared edge types are available. It holds for a method that only one class in use defines.", "quantifier": "all histories of factory calls, all algorithms, every iteration order of the set of base classes", "why_tests_cant": "The outcome depends on all earlier calls in the process and on the order of a set of classes.", "anchors": ["causy/graph_model.py:graph_model_factory", "causy/graph.py:Graph", "causy/edge_types.py:DirectedEdge.GraphAccessMixin"]}
{"id": "C120", "title": "A killed workspace command leaves old files, new files and at most one cut-off file", "statement": "If a workspace command is killed at any moment, workspace.yml and every other file have the content from before the command or the content the command would have given them, except for at most one file, which holds the beginning of its new content. execute never touches workspace.yml, and loses no stored result unless one was stored in the same second. Clearing or removing an experiment only deletes results of that experiment, and touches workspace.yml only when all of them are gone. The other commands write nothing but workspace.yml.", "quantifier": "all workspace commands, all directories, every moment at which the process is killed", "why_tests_cant": "The claim is about every crash point of every command, including the middle of a write.", "anchors": ["causy/workspaces/cli.py:write_to_workspace", "causy/workspaces/cli.py:_save_experiment_result", "causy/workspaces/cli.py:_clear_experiment", "causy/workspaces/cli.py:execute", "causy/workspaces/cli.py:remove_experiment", "causy/workspaces/cli.py:init"]}
{"id": "C121", "title": "Executing again repairs what killed executions left", "statement": "After any number of executions that were killed at any moment, causy workspace execute succeeds if every experiment can be executed, and afterwards every experiment has a newest result that is complete and up to date: experiments whose newest result was complete and up to date keep their results, every other experiment (including one whose newest result file was cut off) is executed again and its new result is the newest. No other file changes.", "quantifier": "all workspaces, all histories of killed executions, every moment at which each of them was killed", "why_tests_cant": "Ranges over all crash points of an unbounded number of executions.", "anchors": ["causy/workspaces/cli.py:execute", "causy/workspaces/cli.py:_execute_experiment", "causy/workspaces/cli.py:_experiment_needs_reexecution", "causy/workspaces/cli.py:_load_latest_experiment_result", "causy/workspaces/cli.py:_save_experiment_result"]}
{"id": "C122", "title": "A killed command leaves the old or the new workspace", "statement": "If a command is killed, the next command finds the workspace from before it or the one after it. False of the code: workspace.yml is emptied and written in place, so that a beginning of the new text may be left; it may be readable, and then experiments are missing or have another pipeline, even after a command that only clears results. It holds except for a cut-off workspace.yml; where that cannot be read, every command but init fails and changes nothing.", "quantifier": "all workspace commands, all directories, every moment at which the process is killed", "why_tests_cant": "The claim is about every crash point of every command, including the middle of a write.", "anchors": ["causy/workspaces/cli.py:write_to_workspace", "causy/workspaces/cli.py:_current_workspace", "causy/workspaces/cli.py:clear_experiment"]}
{"id": "C123", "title": "A served result carries its own version number while results change", "statement": "The UI server answers a request for a result with that result and its own version number, whatever other processes do to the result files during the request. For a given version this holds: the answer is what this version contains when it is read, or 400, and 400 only if the version was missing or unreadable at some moment of the request. For the newest result it is false of the code: the directory is listed again after the result was read, so that a result saved in between gives the old result the new version number, and clearing in between raises IndexError; a newest result that is only half written gives 400 although older ones exist. It holds as long as only other experiments change.", "quantifier": "all directories, all changes by other processes at every moment of the request", "why_tests_cant": "The claim is about every interleaving of a request with other processes.", "anchors": ["causy/ui/server.py:get_latest_experiment", "causy/ui/server.py:get_experiment", "causy/workspaces/cli.py:_load_latest_experiment_result", "causy/workspaces/cli.py:_load_experiment_result", "causy/workspaces/cli.py:_load_experiment_versions"]}
{"id": "C124", "title": "Workspace commands at the same time act as one after the other", "statement": "If workspace commands run at the same time, the workspace they leave is the one they would leave one after the other in some order. False of the code: each command writes the whole workspace it read at its start, so that changes made by overlapping commands are lost, even by clearing results. It holds for some of the commands (the others are lost): hence every experiment's pipeline and data loader still exist, and executions never disturb another command.", "quantifier": "all sets of commands, all interleavings of their file operations, including commands that end early", "why_tests_cant": "The claim is about every interleaving of processes.", "anchors": ["causy/workspaces/cli.py:_current_workspace", "causy/workspaces/cli.py:write_to_workspace", "causy/workspaces/cli.py:clear_experiment", "causy/workspaces/cli.py:execute"]}
{"id": "C125", "title": "An ejected algorithm executes like the original", "statement": "causy eject writes an algorithm to a file, and executing the file gives what executing the algorithm gives; so does a pipeline ejected in a workspace. False of the code for both shipped algorithms: making a model from the file always raises, because edge types come back as dictionaries and ColliderTest has an enumeration setting. It holds for algorithms without edge types whose steps survive dumping and loading. A file of causy eject has the values of the variables filled in, so that changing its variables has no effect; a file ejected in a workspace keeps the references.", "quantifier": "all algorithms, file names, data files and values of variables", "why_tests_cant": "The claim is about all algorithms and all data files; no test of the repository executes an ejected algorithm.", "anchors": ["causy/cli.py:eject", "causy/cli.py:execute", "causy/serialization.py:serialize_algorithm", "causy/serialization.py:load_algorithm_from_specification", "causy/graph_model.py:graph_model_factory", "causy/workspaces/cli.py:_create_pipeline"]}
{"id": "C126", "title": "A step in the worker pool ends even if workers are killed", "statement": "If worker processes are killed while a step runs in the pool, the step still ends, and with an outcome that is possible without deaths. The outcome is right whenever it ends, for steps and for whole pipelines. That it ends is false of the code: the batch of a killed worker never arrives and the loop over the results has no timeout, so that after one such death the step never succeeds, and unless it raises, it waits forever; every step with at least one combination can end like this.", "quantifier": "all steps, graphs, chunk sizes, schedules, and sets and moments of deaths", "why_tests_cant": "The claim is about every schedule and every moment at which a worker may be killed.", "anchors": ["causy/graph_model.py:execute_pipeline_step", "causy/graph_model.py:execute_pipeline_steps"]}
{"id": "C127", "title": "causy execute writes the true graph and its coefficients", "statement": "Let the data file hold samples from linear equations (columns or rows), with noise that averages to zero and is uncorrelated in the sample, more samples than variables, and no dependence hidden at the significance level. Then causy execute with PC, or with ParallelPC and at most 67 variables, cannot fail in any schedule of the worker processes. The result file has the columns as nodes, each edge once, exactly the adjacencies of the true DAG, exactly the compelled directions, the edge type that fits, and the coefficient of the equation on each arrow into a variable without undirected edges; the screen shows the same edges. In particular for the data of the sample generator: the equations that were given to it come back in the result file.", "quantifier": "all systems of linear equations, data files, orders of sets, schedules of the worker pool and names of output files", "why_tests_cant": "Ranges over all equations, all data and all schedules, from the file to the file.", "anchors": ["causy/cli.py:execute", "causy/graph_model.py:AbstractGraphModel.create_graph_from_data", "causy/causal_discovery/constraint/algorithms/pc.py:PC", "causy/causal_discovery/constraint/algorithms/pc.py:ParallelPC", "causy/causal_discovery/constraint/independence_tests/common.py:PartialCorrelationTest", "causy/causal_effect_estimation/multivariate_regression.py:ComputeDirectEffectsInDAGsMultivariateRegression", "causy/sample_generator.py:IIDSampleGenerator"]}
{"id": "C128", "title": "Rounding errors do not change the discovered graph", "statement": "Let the data be samples from linear equations with noise that is uncorrelated in the sample, more samples than variables, and let the test statistics of all dependences exceed the critical value by some margin. Then there is a number delta such that in every arithmetic whose operations have errors below delta (relative or absolute, with overflow beyond 1/delta), and on all data within delta of the ideal data, PC and PCClassic do not raise and return exactly the adjacencies of the true DAG and exactly the compelled directions; so does ParallelPC in every schedule of its worker processes, if the triples of variables fit into one batch.", "quantifier": "all systems of linear equations, all arithmetics of that precision, all data within that distance, orders of sets and schedules of the worker pool", "why_tests_cant": "The claim is about every way in which the operations may round; a test sees the rounding of one machine and library.", "anchors": ["causy/causal_discovery/constraint/independence_tests/common.py:CorrelationCoefficientTest", "causy/causal_discovery/constraint/independence_tests/common.py:PartialCorrelationTest", "causy/causal_discovery/constraint/independence_tests/common.py:ExtendedPartialCorrelationTestMatrix", "causy/common_pipeline_steps/calculation.py:CalculatePearsonCorrelations", "causy/causal_discovery/constraint/algorithms/pc.py:PC", "causy/causal_discovery/constraint/algorithms/pc.py:PCClassic", "causy/causal_discovery/constraint/algorithms/pc.py:ParallelPC"]}
{"id": "C129", "title": "Rounding errors change the direct effects only a little", "statement": "If in addition the noise averages to zero, then for every tolerance there is a number delta such that in every arithmetic with errors below delta, with every least squares solver that is right for data which differ from the given ones by rounding, and on all data within delta of the ideal data, the complete PC, PCClassic and ParallelPC do not raise, return the right graph, and the direct effect on each arrow into a variable without undirected edges is the coefficient of the equation up to the tolerance.", "quantifier": "all systems of linear equations, tolerances, arithmetics and solvers of that precision, all data within that distance, orders of sets and schedules of the worker pool", "why_tests_cant": "The claim is about every way in which the operations may round and every nearby data set.", "anchors": ["causy/causal_effect_estimation/multivariate_regression.py:ComputeDirectEffectsInDAGsMultivariateRegression", "causy/causal_discovery/constraint/independence_tests/common.py:PartialCorrelationTest", "causy/causal_discovery/constraint/independence_tests/common.py:ExtendedPartialCorrelationTestMatrix", "causy/causal_discovery/constraint/algorithms/pc.py:PC", "causy/causal_discovery/constraint/algorithms/pc.py:PCClassic", "causy/causal_discovery/constraint/algorithms/pc.py:ParallelPC"]}
{"id": "C130", "title": "The names of the variables do not matter", "statement": "Rename the variables by any injective function. Then PC, PCClassic and PCStable, with or without the estimation of effects, and ParallelPC in every schedule, give the same result or the same exception, and the graph, the metadata, the separating sets and the action history are the old ones with the new names; if all orders of python sets are allowed, the possible outcomes are the renamed possible outcomes, no more and no fewer.", "quantifier": "all tests or data, renamings, graphs, histories, orders of sets, shuffles, dice and schedules of the worker pool", "why_tests_cant": "The claim is about every renaming and every data set.", "anchors": ["causy/causal_discovery/constraint/algorithms/pc.py:PC", "causy/causal_discovery/constraint/algorithms/pc.py:PCClassic", "causy/causal_discovery/constraint/algorithms/pc.py:PCStable", "causy/causal_discovery/constraint/algorithms/pc.py:ParallelPC", "causy/graph_model.py:execute_pipeline_steps", "causy/graph.py:GraphManager", "causy/generators.py:PairsWithNeighboursGenerator", "causy/causal_discovery/constraint/orientation_rules/pc.py:ColliderTest", "causy/causal_discovery/constraint/independence_tests/common.py:PartialCorrelationTest", "causy/causal_effect_estimation/multivariate_regression.py:ComputeDirectEffectsInDAGsMultivariateRegression"]}
{"id": "C131", "title": "Units, origins, signs and the order of the samples do not matter for the discovered graph", "statement": "Multiply each column of the data by a positive number, add any number to it and permute the samples. Then PC, PCClassic and PCStable without the last step do exactly the same as before: same result or exception, same graph, same correlations, same history; ParallelPC has the same outcomes in every schedule. With factors of any sign but not zero, both runs end or both raise, and all is the same but for the signs of the stored correlations. The kind of the exception can change with the sign: for two perfectly correlated columns it is ZeroDivisionError, for opposite ones ValueError.", "quantifier": "all data sets, also with constant or perfectly correlated columns, factors, offsets, orders of samples, graphs, orders of sets and schedules of the worker pool", "why_tests_cant": "The claim is about all data sets and all their changes of units.", "anchors": ["causy/causal_discovery/constraint/algorithms/pc.py:PC", "causy/causal_discovery/constraint/algorithms/pc.py:PCClassic", "causy/causal_discovery/constraint/algorithms/pc.py:PCStable", "causy/causal_discovery/constraint/algorithms/pc.py:ParallelPC", "causy/causal_discovery/constraint/independence_tests/common.py:CorrelationCoefficientTest", "causy/causal_discovery/constraint/independence_tests/common.py:PartialCorrelationTest", "causy/causal_discovery/constraint/independence_tests/common.py:ExtendedPartialCorrelationTestMatrix", "causy/common_pipeline_steps/calculation.py:CalculatePearsonCorrelations"]}
{"id": "C132", "title": "Generating, loading and learning with rounding errors gives back the graph and the coefficients", "statement": "With rounding errors IIDSampleGenerator does not raise and returns the graph of its edges, and its data come as close as wanted to the exact solution of the equations. If there are ideal draws that average to zero and are uncorrelated in the sample, all dependences are visible with a margin and there are more samples than variables, then for every tolerance there is a number delta such that with every arithmetic with errors below delta and all draws within delta of the ideal ones the data can be generated and loaded (columns or rows), and the complete PC, PCClassic and ParallelPC do not raise and return the graph and, on arrows into variables without undirected edges, the coefficients up to the tolerance.", "quantifier": "all acyclic lists of edges, draws near suitable ones, tolerances, arithmetics and solvers of that precision, orders of sets and schedules of the worker pool", "why_tests_cant": "The claim is about every way in which the operations may round and about all nearby draws.", "anchors": ["causy/sample_generator.py:IIDSampleGenerator", "causy/graph_model.py:create_graph_from_data", "causy/causal_effect_estimation/multivariate_regression.py:ComputeDirectEffectsInDAGsMultivariateRegression", "causy/causal_discovery/constraint/independence_tests/common.py:PartialCorrelationTest", "causy/causal_discovery/constraint/independence_tests/common.py:ExtendedPartialCorrelationTestMatrix", "causy/causal_discovery/constraint/algorithms/pc.py:PC", "causy/causal_discovery/constraint/algorithms/pc.py:PCClassic", "causy/causal_discovery/constraint/algorithms/pc.py:ParallelPC"]}
{"id": "C133", "title": "PCStable finds the skeleton and the FCI rule the colliders in data, also with rounding errors", "statement": "Let the data come from linear equations with noise that is uncorrelated in the sample, with more samples than variables and all dependences visible with a margin. Then there is a number delta such that in every arithmetic with errors below delta and on all data within delta of these: the test phase of PCStable does not raise and finds exactly the adjacencies of the DAG; PCStable with PartialCorrelationTest once more before the orientation does not raise, keeps these adjacencies and directs exactly the compelled edges; the tests of PC or PCClassic followed by ColliderRuleFCI do not raise and an edge from a to b ends with the mark of the rule exactly if the DAG has an unshielded collider a -> b <- c.", "quantifier": "all systems of linear equations, arithmetics of that precision, all data within that distance, orders of sets, histories", "why_tests_cant": "The claim is about every way in which the operations may round and every nearby data set.", "anchors": ["causy/causal_discovery/constraint/algorithms/pc.py:PCStable", "causy/causal_discovery/constraint/algorithms/pc.py:PC", "causy/causal_discovery/constraint/algorithms/pc.py:PCClassic", "causy/causal_discovery/constraint/independence_tests/common.py:PartialCorrelationTest", "causy/causal_discovery/constraint/orientation_rules/fci.py:ColliderRuleFCI", "causy/common_pipeline_steps/logic.py:ApplyActionsTogether"]}
