{"id": "C01", "title": "Node training phases advance one at a time and never go back", "statement": "After any history of train / stop_training / execute / inverse calls on a node with n>=1 training phases: 0 <= get_current_train_phase() <= n, is_training() holds exactly when get_remaining_train_phase() > 0, the phase number never decreases, and a node that has finished training never becomes training again. A non-trainable node always reports phase -1 and is_training() False.", "quantifier": "every finite history of public calls, with any data and any failing user hook; every number of training phases", "why_tests_cant": "needs an induction over unbounded call histories including calls that raise", "anchors": ["mdp/signal_node.py:Node.__init__", "mdp/signal_node.py:Node.train", "mdp/signal_node.py:Node.stop_training", "mdp/signal_node.py:Node._pre_execution_checks"]}
{"id": "C02", "title": "Each training hook sees exactly its own phase's data, in order", "statement": "For any history, the sequence of user hooks that run is: the phase-0 train hook on each accepted array in call order, one phase-0 stop hook, then the phase-1 train hooks, and so on. No stop hook runs twice, no phase is skipped, and a stop hook is always preceded by at least one train hook of the same phase.", "quantifier": "every finite history of public calls, with any data and any failing user hook", "why_tests_cant": "ordering over all histories", "anchors": ["mdp/signal_node.py:Node.train", "mdp/signal_node.py:Node.stop_training"]}
{"id": "C03", "title": "execute only runs a fully trained node, and then leaves it unchanged", "statement": "If execute(x) returns a value then afterwards the node is not training. Executing a node whose training is finished and whose dimensions are set changes nothing, so repeating it gives the same answer. On a trainable node that was never trained, execute(x) first trains every phase on x.", "quantifier": "every node state, every input", "why_tests_cant": "all node states and phase counts", "anchors": ["mdp/signal_node.py:Node._pre_execution_checks", "mdp/signal_node.py:Node.execute"]}
{"id": "C04", "title": "Node dimensions and dtype are write-once", "statement": "Once input_dim, output_dim or dtype of a node is set, no later call, successful or failing, changes it. Setting a different value raises and leaves all three unchanged.", "quantifier": "every finite history of public calls, with any data and any failing user hook", "why_tests_cant": "unbounded histories", "anchors": ["mdp/signal_node.py:Node.set_input_dim", "mdp/signal_node.py:Node.set_output_dim", "mdp/signal_node.py:Node.set_dtype"]}
{"id": "C05", "title": "User hooks only ever receive well-formed data", "statement": "Every array handed to a training or execute hook is two-dimensional, has at least one row, has exactly input_dim columns and has been cast to the node's dtype.", "quantifier": "every finite history of public calls, with any data and any failing user hook", "why_tests_cant": "all histories, all malformed inputs", "anchors": ["mdp/signal_node.py:Node._check_input", "mdp/signal_node.py:Node.train", "mdp/signal_node.py:Node.execute"]}
{"id": "C06", "title": "A call that is rejected leaves the node as it was", "statement": "If train(x) or execute(x) is rejected because of the shape of x, the node's dimensions, dtype and training state are what they were before the call.", "quantifier": "every node state, every malformed input", "why_tests_cant": "all states times all malformed inputs", "anchors": ["mdp/signal_node.py:Node._check_input"]}
{"id": "C07", "title": "PreserveDimNode keeps input_dim equal to output_dim", "statement": "In every reachable state of a PreserveDimNode, input_dim and output_dim are equal (both unset or both the same number).", "quantifier": "every finite history of public calls, with any data and any failing user hook", "why_tests_cant": "unbounded histories", "anchors": ["mdp/signal_node.py:PreserveDimNode"]}
{"id": "C08", "title": "Cumulator collects all training data in order", "statement": "After training a Cumulator on chunks x1..xn and stopping, data is the row concatenation x1++...++xn and tlen is its number of rows; hence only the concatenation matters, not the chunking.", "quantifier": "every list of chunks", "why_tests_cant": "every chunking", "anchors": ["mdp/signal_node.py:VariadicCumulator"]}
{"id": "C09", "title": "inverse is refused unless the node is invertible and trained", "statement": "inverse(y) runs the user's inverse hook only if is_invertible() and all training is finished afterwards, and only on two-dimensional y with output_dim columns; otherwise it raises.", "quantifier": "every state and input", "why_tests_cant": "all states", "anchors": ["mdp/signal_node.py:Node._pre_inversion_checks", "mdp/signal_node.py:Node.inverse"]}
{"id": "C10", "title": "Flow container operations keep neighbouring dimensions consistent", "statement": "Starting from a flow whose construction succeeded, after any sequence of item/slice assignment, deletion, append, extend, insert, pop, + and +=, whether the operations succeed or raise, no node with a set output_dim is followed by a node with a different set input_dim.", "quantifier": "every sequence of container operations", "why_tests_cant": "unbounded edit histories", "anchors": ["mdp/linear_flows.py:Flow.__setitem__", "mdp/linear_flows.py:Flow.__delitem__", "mdp/linear_flows.py:Flow.__iadd__", "mdp/linear_flows.py:Flow._check_nodes_consistency"]}
{"id": "C11", "title": "A failing container operation does not change the flow", "statement": "If a container operation on a flow raises, the flow's node list is the same as before.", "quantifier": "every flow, every operation", "why_tests_cant": "every edit", "anchors": ["mdp/linear_flows.py:Flow.__setitem__", "mdp/linear_flows.py:Flow.__iadd__"]}
{"id": "C12", "title": "Flow container operations behave like list operations", "statement": "When they succeed, append, extend, insert, pop, item access, slice assignment and deletion on a flow give exactly the node list the same operation gives on a Python list, including negative and out-of-range indices.", "quantifier": "every flow, index and node", "why_tests_cant": "all index combinations", "anchors": ["mdp/linear_flows.py:Flow.append", "mdp/linear_flows.py:Flow.insert", "mdp/linear_flows.py:Flow.pop"]}
{"id": "C13", "title": "Executing a flow is composing its nodes; nodenr truncates it", "statement": "flow.execute(x) is the last node's output on the previous node's output and so on. flow.execute(x, nodenr=k) equals flow[:k+1].execute(x). An error in node i stops there and is reported with index i; later nodes are not executed.", "quantifier": "every flow, input and nodenr", "why_tests_cant": "all lengths and failing positions", "anchors": ["mdp/linear_flows.py:Flow._execute_seq", "mdp/linear_flows.py:Flow.execute"]}
{"id": "C14", "title": "Executing or inverting chunk by chunk equals doing it at once", "statement": "For a flow of trained nodes that work row by row, executing an iterable of chunks returns the same rows as executing the concatenation; an empty iterable raises.", "quantifier": "every list of chunks", "why_tests_cant": "every chunking", "anchors": ["mdp/linear_flows.py:Flow.execute", "mdp/linear_flows.py:Flow.inverse"]}
{"id": "C15", "title": "Flow.inverse undoes Flow.execute", "statement": "If every node's inverse undoes its execute then flow.inverse(flow.execute(x)) = x.", "quantifier": "every flow length and input", "why_tests_cant": "all lengths", "anchors": ["mdp/linear_flows.py:Flow._inverse_seq"]}
{"id": "C16", "title": "Flow.train trains every node on data processed by its finished predecessors", "statement": "After a successful flow.train every trainable node has finished training, non-trainable nodes and the nodes' order are unchanged, and each phase of node i was trained exactly on its chunks, in order, each passed through the final trained nodes 0..i-1.", "quantifier": "every flow, phase structure and data", "why_tests_cant": "all phase structures", "anchors": ["mdp/linear_flows.py:Flow.train", "mdp/linear_flows.py:Flow._train_node"]}
{"id": "C17", "title": "CheckpointFlow runs each checkpoint once, at the right moment", "statement": "CheckpointFlow.train calls checkpoint i exactly once, in node order, after node i's data was consumed and before node i+1 receives any, and otherwise trains exactly like Flow.train.", "quantifier": "every flow and checkpoint list", "why_tests_cant": "all lengths, None entries", "anchors": ["mdp/linear_flows.py:CheckpointFlow.train"]}
{"id": "C18", "title": "Bad training arguments are rejected before any node is touched", "statement": "If the number of data iterables (or checkpoints) differs from the number of nodes, or an entry is not iterable, train raises and no node changes.", "quantifier": "every flow and argument list", "why_tests_cant": "all lengths", "anchors": ["mdp/linear_flows.py:Flow._train_check_iterables", "mdp/linear_flows.py:CheckpointFlow._train_check_checkpoints"]}
{"id": "C19", "title": "Training a FlowNode equals training its flow", "statement": "Training a FlowNode phase by phase, feeding the same data in every phase and closing each, leaves the internal nodes in the same state as Flow.train on that data; the FlowNode's number of phases is the sum of the remaining phases of the internal nodes.", "quantifier": "every internal flow and data", "why_tests_cant": "all phase structures", "anchors": ["mdp/hinet/flownode.py:FlowNode._get_train_seq", "mdp/hinet/flownode.py:FlowNode._execute"]}
{"id": "C20", "title": "Layer executes its nodes side by side", "statement": "Layer.execute(x) is the column-wise concatenation of each node applied to its own block of columns, blocks being consecutive and of the nodes' input dims; the output has the sum of the output dims as width.", "quantifier": "every list of nodes and input", "why_tests_cant": "all widths and counts", "anchors": ["mdp/hinet/layer.py:Layer._execute"]}
{"id": "C21", "title": "Layer.inverse undoes Layer.execute", "statement": "If every internal node's inverse undoes its execute then the layer's inverse undoes its execute.", "quantifier": "every list of nodes and input", "why_tests_cant": "all widths", "anchors": ["mdp/hinet/layer.py:Layer._inverse"]}
{"id": "C22", "title": "CloneLayer executes like a Layer of identical nodes", "statement": "CloneLayer(node, n).execute(x) = Layer([node]*n).execute(x) for a trained node that works row by row and has at least one column (same for inverse).", "quantifier": "every n, width and input", "why_tests_cant": "all n", "anchors": ["mdp/hinet/layer.py:CloneLayer._execute"]}
{"id": "C23", "title": "Layer training closes each inner node after its own number of phases", "statement": "After k completed layer training phases (no call raising) every inner node has finished exactly min(k, its own remaining number) phases and was trained on its own column block in each of them; when the layer finishes all nodes are trained.", "quantifier": "every mix of phase counts", "why_tests_cant": "all phase mixes", "anchors": ["mdp/hinet/layer.py:Layer._get_train_seq", "mdp/hinet/layer.py:Layer._train", "mdp/hinet/layer.py:Layer._stop_training"]}
{"id": "C24", "title": "Switchboard routes exactly the declared connections", "statement": "A constructed Switchboard maps every row x to [x[c] for c in connections]; construction fails exactly when the connection list is empty or contains an index that is not a valid input index.", "quantifier": "every connection list and row", "why_tests_cant": "all connection lists", "anchors": ["mdp/hinet/switchboard.py:Switchboard.__init__", "mdp/hinet/switchboard.py:Switchboard._execute"]}
{"id": "C25", "title": "Switchboard inverse is a true two-sided inverse", "statement": "If is_invertible() then inverse(execute(x)) = x and execute(inverse(y)) = y for all x, y of the right width; is_invertible() holds whenever the connections are a permutation.", "quantifier": "every connection list", "why_tests_cant": "all permutations of all sizes", "anchors": ["mdp/hinet/switchboard.py:Switchboard._inverse"]}
{"id": "C26", "title": "MeanInverseSwitchboard averages duplicates and zeroes unused inputs", "statement": "The inverse of MeanInverseSwitchboard sets each input to the mean of all outputs connected to it and to zero when none is connected; so inverse(execute(x)) agrees with x on every connected input.", "quantifier": "every connection list and row", "why_tests_cant": "all connection lists", "anchors": ["mdp/hinet/switchboard.py:MeanInverseSwitchboard._inverse"]}
{"id": "C27", "title": "Rectangular switchboards cover the image with in-range fields", "statement": "For every accepted 2d rectangular switchboard geometry every connection is a valid input index, output channel (x,y) consists of exactly the field_x*field_y block of input channels starting at (x*spacing_x, y*spacing_y), and when unused channels are not explicitly ignored every input channel is connected at least once.", "quantifier": "every geometry", "why_tests_cant": "all sizes", "anchors": ["mdp/hinet/switchboard.py:Rectangular2dSwitchboard"]}
{"id": "C28", "title": "Coordinate translation round-trips", "statement": "CoordinateTranslator maps channel indices in range to pixel coordinates in range and back without loss, in both directions, and rejects out-of-range values.", "quantifier": "every image size, every index", "why_tests_cant": "all sizes", "anchors": ["mdp/hinet/switchboard.py:CoordinateTranslator"]}
{"id": "C29", "title": "topological_sort returns every node once, ancestors first", "statement": "If topological_sort returns, the result is a permutation of the graph's nodes and for every edge the head precedes the tail.", "quantifier": "every graph built by the API", "why_tests_cant": "all graphs", "anchors": ["mdp/graph/graph.py:Graph.topological_sort"]}
{"id": "C30", "title": "topological_sort raises exactly on cyclic graphs", "statement": "topological_sort raises GraphTopologicalException if and only if the graph has a directed cycle (including self-loops).", "quantifier": "every graph built by the API", "why_tests_cant": "all graphs", "anchors": ["mdp/graph/graph.py:Graph.topological_sort"]}
{"id": "C31", "title": "dfs and bfs visit exactly the reachable nodes, once each, and terminate", "statement": "dfs(root)/bfs(root) terminate and return a duplicate-free list, starting with root, of exactly the nodes reachable from root along edges (undirected versions: along edges in either direction); bfs returns them in order of non-decreasing distance.", "quantifier": "every graph and root", "why_tests_cant": "all graphs", "anchors": ["mdp/graph/graph.py:Graph._dfs", "mdp/graph/graph.py:Graph._bfs"]}
{"id": "C32", "title": "connected_components partitions the nodes", "statement": "connected_components returns a partition of the nodes: every node is in exactly one component and two nodes share a component iff an undirected path joins them. is_weakly_connected is True iff there is exactly one component.", "quantifier": "every non-empty graph", "why_tests_cant": "all graphs", "anchors": ["mdp/graph/graph.py:Graph.connected_components", "mdp/graph/graph.py:Graph.is_weakly_connected"]}
{"id": "C33", "title": "Graph edge bookkeeping stays consistent", "statement": "After any sequence of add_node/remove_node/add_edge/remove_edge, every node's edge-in/edge-out lists contain exactly the graph's edges ending/starting there, once each, and every edge joins nodes of the graph; remove_node removes exactly the node and its incident edges.", "quantifier": "every operation sequence", "why_tests_cant": "unbounded histories", "anchors": ["mdp/graph/graph.py:Graph.add_edge", "mdp/graph/graph.py:Graph.remove_edge", "mdp/graph/graph.py:Graph.remove_node"]}
{"id": "C34", "title": "add_tree builds the described tree", "statement": "add_tree of a nested tuple adds one node per value and exactly one edge from each parent to each child: n nodes, n-1 edges, every non-root node has exactly one parent.", "quantifier": "every nested tree", "why_tests_cant": "all shapes and depths", "anchors": ["mdp/graph/graph.py:Graph.add_tree", "mdp/graph/graph.py:recursive_reduce"]}
{"id": "C35", "title": "Activating and deactivating an extension restores the classes", "statement": "For every set of registered extensions, activating an extension and then deactivating it leaves every class attribute exactly as it was before.", "quantifier": "every registry and class layout", "why_tests_cant": "all registries and histories", "anchors": ["mdp/extension.py:activate_extension", "mdp/extension.py:deactivate_extension"]}
{"id": "C36", "title": "Extension activation is idempotent and the active set is exact", "statement": "Activating an active extension or deactivating an inactive one changes nothing; get_active_extensions() returns exactly the extensions activated and not deactivated since; while an extension is active each attribute it declares has the extension's value.", "quantifier": "every history", "why_tests_cant": "all histories", "anchors": ["mdp/extension.py:activate_extension", "mdp/extension.py:get_active_extensions"]}
{"id": "C37", "title": "A failed activation leaves no trace", "statement": "If activate_extension raises because of a collision with an active extension then all class attributes and the set of active extensions are as before the call.", "quantifier": "every registry", "why_tests_cant": "all registries", "anchors": ["mdp/extension.py:activate_extension"]}
{"id": "C38", "title": "The extension context manager restores the previous active set", "statement": "On leaving `with extension(names)` or a @with_extension function, normally or by exception, exactly the extensions that were active on entry are active, if the body itself is balanced.", "quantifier": "every nesting and every exception point", "why_tests_cant": "all nestings", "anchors": ["mdp/extension.py:extension", "mdp/extension.py:with_extension"]}
{"id": "C39", "title": "Results come back in task order for any completion order", "statement": "With the default result container get_results returns the result of every task submitted since the last get_results, ordered by submission, whatever the order in which workers finish.", "quantifier": "every set of tasks, every completion order", "why_tests_cant": "all interleavings", "anchors": ["mdp/parallel/scheduling.py:OrderedResultContainer", "mdp/parallel/scheduling.py:Scheduler._store_result"]}
{"id": "C40", "title": "Open-task accounting is exact, so get_results waits for exactly the pending tasks", "statement": "At every moment n_open_tasks is the number of submitted tasks whose result has not been stored, task_counter the number submitted, and get_results can return only when no task is open.", "quantifier": "every interleaving of submissions and completions", "why_tests_cant": "all interleavings", "anchors": ["mdp/parallel/scheduling.py:Scheduler.add_task", "mdp/parallel/scheduling.py:Scheduler.get_results"]}
{"id": "C41", "title": "Every task runs with the callable it was submitted with", "statement": "A process scheduler computes every task's result with the callable given in its add_task call (or the last one given before it), for every scheduling of the worker threads, also when callables are cached in the workers.", "quantifier": "every interleaving of submissions and worker threads", "why_tests_cant": "thread interleavings", "anchors": ["mdp/parallel/process_schedule.py:ProcessScheduler._task_thread", "mdp/parallel/process_schedule.py:_process_run"]}
{"id": "C42", "title": "ThreadScheduler runs at most n_threads tasks at a time", "statement": "The number of tasks running concurrently in a ThreadScheduler never exceeds n_threads.", "quantifier": "every interleaving", "why_tests_cant": "thread interleavings", "anchors": ["mdp/parallel/thread_schedule.py:ThreadScheduler._process_task"]}
{"id": "C43", "title": "A rejected or failing scheduler call does not block later calls", "statement": "After a scheduler call raises (no callable available, callable raises, empty results), further calls on the scheduler can proceed.", "quantifier": "every history", "why_tests_cant": "all crash points", "anchors": ["mdp/parallel/scheduling.py:Scheduler.add_task", "mdp/parallel/scheduling.py:Scheduler.get_results"]}
{"id": "C44", "title": "Training in parallel equals training sequentially", "statement": "For PCA, SFA, FDA and histogram nodes, splitting the training chunks over forks in any way and joining them in any order gives the same accumulated statistics as training one node on all chunks.", "quantifier": "every partition of the data and join order", "why_tests_cant": "all partitions and orders", "anchors": ["mdp/parallel/parallelnodes.py:ParallelPCANode", "mdp/parallel/parallelnodes.py:ParallelSFANode", "mdp/parallel/parallelnodes.py:_join_covariance"]}
{"id": "C45", "title": "The covariance accumulator is independent of chunking and computes the textbook covariance", "statement": "CovarianceMatrix.update over any chunking of the rows followed by fix() returns the unbiased (or biased) sample covariance and mean of all rows and their number, then starts from zero; the matrix is symmetric.", "quantifier": "every chunking of every data set", "why_tests_cant": "all chunkings", "anchors": ["mdp/utils/covariance.py:CovarianceMatrix"]}
{"id": "C46", "title": "The delay covariance pairs x(t) with x(t+dt) inside chunks only", "statement": "DelayCovarianceMatrix accumulates exactly the products x(t)x(t+dt) with both times in one chunk; symmetrized result is symmetric; chunks shorter than dt are rejected.", "quantifier": "every dt and chunk list", "why_tests_cant": "all sizes", "anchors": ["mdp/utils/covariance.py:DelayCovarianceMatrix"]}
{"id": "C47", "title": "The time-weighted covariance does not depend on the chunking", "statement": "VartimeCovarianceMatrix with time dependence gives the trapezoid-rule time-weighted covariance of the whole series, whatever the chunking of the series.", "quantifier": "every series, step widths and chunking", "why_tests_cant": "all chunkings", "anchors": ["mdp/utils/covariance.py:VartimeCovarianceMatrix"]}
{"id": "C48", "title": "Caching does not change results", "statement": "With the caching extension active execute(x) returns what the uncached execute(x) would return, for any sequence of calls on any nodes, as long as the node state is part of the key.", "quantifier": "every call sequence", "why_tests_cant": "all histories", "anchors": ["mdp/caching/caching_extension.py:CacheExecuteExtensionNode.execute"]}
{"id": "C49", "title": "Instance and class cache switches compose", "statement": "A node is cached exactly when its instance or one of the classes it inherits from is switched on; switching an instance on and off again restores the previous state.", "quantifier": "every switch history", "why_tests_cant": "all histories", "anchors": ["mdp/caching/caching_extension.py:set_instance_cache", "mdp/caching/caching_extension.py:is_cached"]}
{"id": "C50", "title": "comb computes the binomial coefficient exactly", "statement": "comb(N,k) equals N choose k for all N,k (0 for k>N), and nmonomials/expanded_dim equal the number of monomials.", "quantifier": "all N, k", "why_tests_cant": "unbounded integers", "anchors": ["mdp/utils/routines.py:comb", "mdp/nodes/expansion_nodes.py:nmonomials"]}
{"id": "C51", "title": "PolynomialExpansionNode outputs every monomial exactly once", "statement": "For every degree d>=1 and dimension n>=1, the output of PolynomialExpansionNode(d) on a row x lists every monomial in x of degree 1..d exactly once, fills exactly output_dim entries, and starts with x itself.", "quantifier": "all degrees, dimensions and inputs", "why_tests_cant": "all degrees and dimensions", "anchors": ["mdp/nodes/expansion_nodes.py:PolynomialExpansionNode._execute"]}
{"id": "C52", "title": "TimeFramesNode output contains the delayed copies and pseudo_inverse recovers the signal", "statement": "Row t of execute(x) is x[t],x[t+gap],..,x[t+(frames-1)*gap]; the output has len(x)-(frames-1)*gap rows; pseudo_inverse(execute(x)) = x when the output has at least gap rows, and execute(pseudo_inverse(y)) = y for y in the range of execute.", "quantifier": "all lengths, gaps, frame numbers", "why_tests_cant": "all sizes", "anchors": ["mdp/nodes/misc_nodes.py:TimeFramesNode"]}
{"id": "C53", "title": "TimeDelayNode and its sliding-window variant agree", "statement": "Feeding the rows of x one by one to TimeDelaySlidingWindowNode gives the rows of TimeDelayNode.execute(x), for every x with at least one row, gap >= 1 and number of frames.", "quantifier": "all signals, gaps, frame numbers", "why_tests_cant": "all sizes", "anchors": ["mdp/nodes/misc_nodes.py:TimeDelayNode._execute", "mdp/nodes/misc_nodes.py:TimeDelaySlidingWindowNode._execute"]}
{"id": "C54", "title": "HitParade keeps true, separated extremes including the global maximum", "statement": "After any chunks the recorded maxima are values of the signal at their recorded indices, pairwise more than d apart, include the global maximum, and do not depend on the chunking (same for minima).", "quantifier": "all signals, n, d and chunkings", "why_tests_cant": "all signals", "anchors": ["mdp/nodes/misc_nodes.py:OneDimensionalHitParade.update", "mdp/nodes/misc_nodes.py:HitParadeNode._train"]}
{"id": "C55", "title": "Cutoff nodes clip into the bounds and nothing else", "statement": "CutoffNode output lies within the bounds, values inside are unchanged and executing twice equals once (for lower <= upper); AdaptiveCutoffNode clips at most the requested fraction of the training data on each side.", "quantifier": "all bounds and data", "why_tests_cant": "all data", "anchors": ["mdp/nodes/misc_nodes.py:CutoffNode._execute", "mdp/nodes/misc_nodes.py:AdaptiveCutoffNode._stop_training"]}
{"id": "C56", "title": "SimpleMarkovClassifier returns a probability distribution equal to the observed frequencies", "statement": "For a feature seen in training the returned label probabilities equal count(feature,label)/count(feature) and sum to one; for an unseen feature the result is empty.", "quantifier": "all training histories", "why_tests_cant": "all histories", "anchors": ["mdp/nodes/classifier_nodes.py:SimpleMarkovClassifier"]}
{"id": "C57", "title": "NearestMean and KNN classifiers return a label that truly is nearest", "statement": "NearestMeanClassifier returns a label whose class mean has minimal distance to x, means being the means of all samples given for that label in any chunking; KNNClassifier with k=1 returns the label of a nearest sample.", "quantifier": "all training data, chunkings and inputs", "why_tests_cant": "all data", "anchors": ["mdp/nodes/classifier_nodes.py:NearestMeanClassifier", "mdp/nodes/classifier_nodes.py:KNNClassifier"]}
{"id": "C58", "title": "Hopfield recall terminates in a fixed point", "statement": "Labelling a pattern with DiscreteHopfieldClassifier terminates for every trained network, pattern, threshold and random update order, and the returned pattern is stable.", "quantifier": "all weights from training, patterns, thresholds, update orders", "why_tests_cant": "termination over all random schedules", "anchors": ["mdp/nodes/classifier_nodes.py:DiscreteHopfieldClassifier._label_one"]}
{"id": "C59", "title": "A BiFlow without jumps is a Flow", "statement": "If no node returns a message or target then BiFlow.execute returns the composition of the nodes, with an empty message, chunk by chunk concatenated.", "quantifier": "every flow and chunk list", "why_tests_cant": "all lengths", "anchors": ["bimdp/biflow.py:BiFlow.execute", "bimdp/biflow.py:BiFlow._execute_seq"]}
{"id": "C60", "title": "BiFlow jumps stay inside the flow", "statement": "During BiFlow execution control only ever moves to a node addressed by a valid relative index or id; leaving the flow is only possible at its ends or by the exit target, and an invalid index is an error.", "quantifier": "every flow and target sequence", "why_tests_cant": "all target sequences", "anchors": ["bimdp/biflow.py:BiFlow._execute_seq", "bimdp/biflow.py:BiFlow._target_to_index"]}
{"id": "C61", "title": "Message parts not consumed by a node are passed on and node results take priority", "statement": "In BiNode.execute the outgoing message contains every incoming entry not addressed to this node, overwritten by the node's own message entries; node-addressed entries are removed; the node's own target wins over the message's target.", "quantifier": "every message and result", "why_tests_cant": "all messages", "anchors": ["bimdp/binode.py:BiNode.execute", "bimdp/binode.py:BiNode._combine_result", "bimdp/binode.py:BiNode._extract_method_args"]}
{"id": "C62", "title": "BiFlow accepts chunks that all produce no array", "statement": "BiFlow.execute over several chunks raises 'Some but not all y return values were None' only if some but not all chunks returned no array.", "quantifier": "every chunk list", "why_tests_cant": "all lengths", "anchors": ["bimdp/biflow.py:BiFlow.execute"]}
{"id": "C63", "title": "OnlineNode trains on every sample in every phase order and never closes by itself", "statement": "OnlineNode.train feeds each sample (or batch) through all phases in order, train_iteration counts the samples, execute never ends training, and stop_training closes all phases exactly once.", "quantifier": "every finite history of public calls, with any data and any failing user hook", "why_tests_cant": "all histories", "anchors": ["mdp/signal_node_online.py:OnlineNode.train", "mdp/signal_node_online.py:OnlineNode.stop_training"]}
{"id": "C64", "title": "OnlineFlow trains node i on the current output of its predecessors", "statement": "For every incoming chunk each node of an OnlineFlow is trained, before the chunk is executed by it, on the chunk processed by the already updated preceding nodes.", "quantifier": "every flow and chunk list", "why_tests_cant": "all lengths", "anchors": ["mdp/linear_flows_online.py:OnlineFlow._train_nodes"]}
{"id": "C65", "title": "CircularOnlineFlow input/output node selection rotates the ring", "statement": "set_input_node(i) makes node i the first while keeping the cyclic order and the same output node, for valid i; out-of-range indices are rejected.", "quantifier": "every flow, every index history", "why_tests_cant": "all histories", "anchors": ["mdp/linear_flows_online.py:CircularOnlineFlow.set_input_node", "mdp/linear_flows_online.py:CircularOnlineFlow.set_output_node"]}
{"id": "C66", "title": "Channels of a ChannelSwitchboard", "statement": "get_out_channel_node(c) is a switchboard that gives, on every row, exactly the block of output channel c of the whole switchboard; get_out_channels_input_channels(cs) returns, ascending and without repetition, exactly the input channels that some connection of one of the channels cs comes from.", "quantifier": "every channel switchboard, channel list and row", "why_tests_cant": "all connection lists", "anchors": ["mdp/hinet/switchboard.py:ChannelSwitchboard"]}
{"id": "C67", "title": "DoubleRect2dSwitchboard covers the border once and the inside twice", "statement": "A DoubleRect2dSwitchboard is accepted exactly for even fields that fit with less than half a field left over (nothing, unless ignored); then every connection is a valid input index, the long fields tile the input, and an input channel is connected exactly twice if it is at least half a field away from every border and exactly once otherwise.", "quantifier": "every geometry", "why_tests_cant": "all sizes", "anchors": ["mdp/hinet/switchboard.py:DoubleRect2dSwitchboard"]}
{"id": "C68", "title": "DoubleRhomb2dSwitchboard fields are rotated squares that cover inner points twice", "statement": "Construction of a DoubleRhomb2dSwitchboard succeeds exactly for compatible geometries and never fails inside the index computation; output channel (x, y) consists of exactly the lattice points whose taxicab distance from the field's center is less than the edge length, each once; every connection is a valid input index; every inner lattice point is in exactly two fields.", "quantifier": "every geometry", "why_tests_cant": "all sizes", "anchors": ["mdp/hinet/switchboard.py:DoubleRhomb2dSwitchboard"]}
{"id": "C69", "title": "Private data of a node is determined by its hook calls", "statement": "After any history of train, stop_training, execute, inverse and setter calls, whether they raise or not, the data a Node subclass keeps privately equals what one gets by applying its hooks to the initial data in the order, and with the (cast) arguments, in which the node called them; nothing else in the Node base class touches it.", "quantifier": "every node class, every history of calls", "why_tests_cant": "all histories", "anchors": ["mdp/signal_node.py:Node"]}
{"id": "C70", "title": "Training a CloneLayer trains its one node on all blocks", "statement": "Going through k training phases of a new CloneLayer(node, n) leaves the node in the state in which training it alone on the n consecutive column blocks of every chunk, in order and phase by phase, puts it; afterwards the layer's output_dim is n times that of the node.", "quantifier": "every node class, n, and list of chunk lists", "why_tests_cant": "all sizes and histories", "anchors": ["mdp/hinet/layer.py:CloneLayer", "mdp/hinet/layer.py:Layer._train"]}
{"id": "C71", "title": "SameInputLayer concatenates what its nodes give for the whole input", "statement": "After any history, if SameInputLayer.execute(x) returns y then all inner nodes are trained and row k of y is the concatenation, in node order, of row k of what each inner node gives for the whole of x.", "quantifier": "every list of nodes, every history", "why_tests_cant": "all histories", "anchors": ["mdp/hinet/layer.py:SameInputLayer"]}
{"id": "C72", "title": "Training a SameInputLayer trains every node on the whole chunks", "statement": "Going through training phases of a SameInputLayer leaves every inner node in the state in which training it alone on the same chunks puts it, for as many phases as it has.", "quantifier": "every list of nodes and of chunk lists", "why_tests_cant": "all histories", "anchors": ["mdp/hinet/layer.py:SameInputLayer._train"]}
{"id": "C73", "title": "A FlowNode knows its dimensions after training", "statement": "When the last training phase of a FlowNode has been closed, its output_dim is that of its last internal node if known, and inside the flow every node's input_dim equals its predecessor's output_dim if that is known.", "quantifier": "every flow and history", "why_tests_cant": "all histories", "anchors": ["mdp/hinet/flownode.py:FlowNode._fix_nodes_dimensions"]}
{"id": "C74", "title": "The list result container returns every result once", "statement": "With the unordered list container get_results returns exactly one entry for each task submitted since the last get_results, in some order.", "quantifier": "every scheduler, every interleaving", "why_tests_cant": "all interleavings", "anchors": ["mdp/parallel/scheduling.py:ListResultContainer", "mdp/parallel/scheduling.py:Scheduler.get_results"]}
{"id": "C75", "title": "A process scheduler never runs more than n_processes tasks at once", "statement": "At every moment at most n_processes tasks are in worker processes and no process has two tasks.", "quantifier": "every interleaving of client and task threads", "why_tests_cant": "all interleavings", "anchors": ["mdp/parallel/process_schedule.py:ProcessScheduler"]}
{"id": "C76", "title": "A scheduler can be shut down once get_results has returned", "statement": "shutdown() called after get_results() has returned (with no task submitted in between) succeeds.", "quantifier": "every interleaving", "why_tests_cant": "all interleavings", "anchors": ["mdp/parallel/process_schedule.py:ProcessScheduler._shutdown", "mdp/parallel/process_schedule.py:ProcessScheduler._task_thread"]}
{"id": "C77", "title": "CrossCovarianceMatrix computes the sample cross-covariance", "statement": "After update(x_i, y_i) for any chunks fix() returns the cross-covariance of all pairs of rows (divided by N or N-1 as asked), both means and the number of rows; a pair of chunks with different numbers of rows is refused.", "quantifier": "every list of chunk pairs", "why_tests_cant": "all data and chunkings", "anchors": ["mdp/utils/covariance.py:CrossCovarianceMatrix"]}
{"id": "C78", "title": "MultipleCovarianceMatrices operations are congruences", "statement": "rotate by an angle in the plane (i,j) turns every matrix C into G^T C G with the rotation G, permute swaps rows and columns, transform(T) gives T^T C T; all keep symmetry, the opposite rotation undoes a rotation and a rotation keeps the trace.", "quantifier": "every symmetric matrix, plane, angle", "why_tests_cant": "all matrices", "anchors": ["mdp/utils/covariance.py:MultipleCovarianceMatrices"]}
{"id": "C79", "title": "SFANode trained on overlapping chunks equals training on the whole signal", "statement": "Training an SFANode with include_last_sample=False on chunks that each start with the last sample of the one before gives the same statistics of signal and derivative as training on the whole signal at once.", "quantifier": "every signal and every way to cut it", "why_tests_cant": "all chunkings", "anchors": ["mdp/nodes/sfa_nodes.py:SFANode._train"]}
{"id": "C80", "title": "FDANode computes within-class scatter and total covariance", "statement": "After the two passes of an FDANode over labelled data, in any chunking of either pass, the matrices handed to the eigenvalue solver are the sum over samples of the outer products of deviations from their class mean, and the covariance of all data.", "quantifier": "every labelled data set, every two chunkings", "why_tests_cant": "all data", "anchors": ["mdp/nodes/fda_nodes.py:FDANode"]}
{"id": "C81", "title": "A single label counts for all rows", "statement": "Training a SimpleMarkovClassifier with a single label (of any type) for a chunk is the same as giving that label for each row, as documented.", "quantifier": "every chunk and label", "why_tests_cant": "all labels", "anchors": ["mdp/nodes/classifier_nodes.py:SimpleMarkovClassifier._train", "mdp/utils/routines.py:izip_stretched"]}
{"id": "C82", "title": "rank lists the labels by decreasing probability", "statement": "ClassifierNode.rank returns for each row exactly the labels whose probability exceeds the threshold (all labels without threshold), each once, with non-increasing probability.", "quantifier": "every probability dictionary and threshold", "why_tests_cant": "all dictionaries", "anchors": ["mdp/classifier_node.py:ClassifierNode.rank"]}
{"id": "C83", "title": "weighted_choice draws keys in proportion to their weights", "statement": "For non-negative weights that are not all zero and any random number in [0,1), weighted_choice returns the key whose interval contains the number, the unit interval being divided in proportion to the weights; it never returns None.", "quantifier": "every dictionary of weights and random number", "why_tests_cant": "all weights", "anchors": ["mdp/utils/routines.py:weighted_choice"]}
{"id": "C84", "title": "Perceptron training converges on separable data", "statement": "PerceptronClassifier: for data separable by a hyperplane with a margin the number of wrongly classified samples met in training is bounded whatever the order and number of samples; repeating a finite separable data set often enough, every sample is classified correctly from then on. Labels other than 1 and -1 are refused without change.", "quantifier": "every separable data set, order and number of repetitions", "why_tests_cant": "all data sets and unbounded training", "anchors": ["mdp/nodes/classifier_nodes.py:PerceptronClassifier"]}
{"id": "C85", "title": "KMeans training converges and labels are nearest centroids", "statement": "After stop_training of a KMeansClassifier each centroid is the mean of the training rows labelled with it, or the label of no row; label returns the index of a nearest centroid. More clusters than rows are refused.", "quantifier": "every data set, chunking, choice of initial centroids and max_iter", "why_tests_cant": "all data; unbounded iteration", "anchors": ["mdp/nodes/classifier_nodes.py:KMeansClassifier"]}
{"id": "C86", "title": "GaussianClassifier computes Bayes posteriors", "statement": "After training with labelled rows in any chunking, prob gives for each row positive numbers that sum to one, proportional to prior (fraction of rows) times normal density with the mean and covariance of the class; label returns a class with the largest; a singular class covariance makes stop_training raise.", "quantifier": "every labelled data set, chunking and row", "why_tests_cant": "all data", "anchors": ["mdp/nodes/classifier_nodes.py:GaussianClassifier"]}
{"id": "C87", "title": "OnlineFlow.train leaves its online nodes open", "statement": "After an accepted OnlineFlow.train every OnlineNode of the flow that was training is still training, so that train can be called again with more data.", "quantifier": "every flow, data and history of earlier calls", "why_tests_cant": "all flows and data", "anchors": ["mdp/linear_flows_online.py:OnlineFlow._train_nodes", "mdp/linear_flows_online.py:OnlineFlow.train"]}
{"id": "C88", "title": "A terminal ordinary node of an OnlineFlow is trained on all the data", "statement": "If the last node of an OnlineFlow is an ordinary trainable node then an accepted train gives it every chunk, processed by the preceding nodes, and then closes it.", "quantifier": "every flow and chunk list", "why_tests_cant": "all lengths", "anchors": ["mdp/linear_flows_online.py:OnlineFlow._train_nodes"]}
{"id": "C89", "title": "OnlineFlow container operations keep the flow valid", "statement": "Over every history of container calls and trainings an OnlineFlow is not empty, all nodes but the last are online, trained or not trainable, neighbouring dimensions agree and the flow knows how many arguments each node needs; an accepted call has the effect of the list operation, a rejected one has none.", "quantifier": "every finite history of calls, accepted or rejected", "why_tests_cant": "unbounded histories", "anchors": ["mdp/linear_flows_online.py:OnlineFlow.__setitem__", "mdp/linear_flows_online.py:OnlineFlow.__iadd__"]}
{"id": "C90", "title": "CircularOnlineFlow.train circulates each chunk the given number of times", "statement": "For every chunk the nodes of the ring are trained and executed in order, flow_iterations times, the first round on the chunk (or on the stored input if input is ignored), each later one on the output of the previous round; the last output is stored; with one iteration it trains as an OnlineFlow; ignored input data do not matter.", "quantifier": "every ring, chunk list and number of iterations", "why_tests_cant": "all lengths and iteration counts", "anchors": ["mdp/linear_flows_online.py:CircularOnlineFlow._train_nodes"]}
{"id": "C91", "title": "CircularOnlineFlow container operations are all or nothing and keep the output node", "statement": "A container call on a CircularOnlineFlow that raises leaves the flow as it was; one that returns has the effect of the list operation and the output node is the same node as before unless it was removed.", "quantifier": "every flow, output node and call", "why_tests_cant": "all positions relative to the output node", "anchors": ["mdp/linear_flows_online.py:CircularOnlineFlow.__setitem__", "mdp/linear_flows_online.py:CircularOnlineFlow.__delitem__", "mdp/linear_flows_online.py:CircularOnlineFlow.insert"]}
{"id": "C92", "title": "CircularOnlineFlow stores the given input and executes from input to output node", "statement": "set_stored_input stores its argument or raises; execute applies exactly the nodes from the input node to the output node in order; inverse undoes them.", "quantifier": "every ring, output node and array", "why_tests_cant": "all rings", "anchors": ["mdp/linear_flows_online.py:CircularOnlineFlow.set_stored_input", "mdp/linear_flows_online.py:CircularOnlineFlow.execute", "mdp/linear_flows_online.py:CircularOnlineFlow._inverse_seq"]}
{"id": "C93", "title": "BiNode calls do not change the caller's message", "statement": "Executing, training or stopping a BiNode with a message leaves the dictionary of the caller as it was, as callers that reuse a message rely on.", "quantifier": "every node, message and call", "why_tests_cant": "all messages and nodes", "anchors": ["bimdp/binode.py:BiNode._extract_method_args", "bimdp/binode.py:BiNode._combine_result"]}
{"id": "C94", "title": "BiNode training phases advance only with returned stop_training calls", "statement": "Over every history of train and stop_training calls with any data and messages the current phase is the number of stop_training calls that got to the end of the phase, a node with all phases completed refuses both calls, and train returns a result only if it asks for a continuation.", "quantifier": "every finite history of calls, accepted or rejected", "why_tests_cant": "unbounded histories", "anchors": ["bimdp/binode.py:BiNode.train", "bimdp/binode.py:BiNode.stop_training"]}
{"id": "C95", "title": "Chunks of a BiFlow execution do not influence one another", "statement": "If execution changes only what bi_reset restores then the result for each chunk of an iterable is the same as when it is executed alone.", "quantifier": "every flow and list of chunks", "why_tests_cant": "all lengths", "anchors": ["bimdp/biflow.py:BiFlow.execute", "bimdp/biflow.py:BiFlow._bi_reset"]}
{"id": "C96", "title": "Messages of several chunks are joined by key", "statement": "The message returned for several chunks has for every key that some chunk's message has: the concatenation of arrays, or the sum of other values that can be added, in the order of the chunks, or the last value.", "quantifier": "every list of messages", "why_tests_cant": "all messages", "anchors": ["bimdp/biflow.py:MessageResultContainer"]}
{"id": "C97", "title": "BiFlow.train trains in order and completes the training", "statement": "BiFlow.train, whatever jumps the nodes ask for, trains a node and ends its phases only when all trainable nodes before it have completed their training; when it returns all trainable nodes have completed their training.", "quantifier": "every flow, data, messages and jumps", "why_tests_cant": "all flows, jumps and data", "anchors": ["bimdp/biflow.py:BiFlow.train", "bimdp/biflow.py:BiFlow._train_node", "bimdp/biflow.py:BiFlow._train_node_single_phase"]}
{"id": "C98", "title": "A BiFlow without jumps is trained like a Flow", "statement": "If nodes return only data and training asks for no continuation then BiFlow.train trains node after node, each trainable node in its remaining phases, in every phase on every chunk as processed by the nodes before it; the first failure ends the training; missing data are an error.", "quantifier": "every flow and data", "why_tests_cant": "all lengths, phases and chunk lists", "anchors": ["bimdp/biflow.py:BiFlow.train", "bimdp/biflow.py:BiFlow._train_node_single_phase"]}
{"id": "C99", "title": "BiCheckpointFlow calls each checkpoint after its node and otherwise trains like a BiFlow", "statement": "A checkpoint function is called once its node and all trainable nodes before it have completed training; a checkpoint function that does nothing does not disturb the training.", "quantifier": "every flow, data and checkpoint functions", "why_tests_cant": "all flows", "anchors": ["bimdp/biflow.py:BiCheckpointFlow.train", "mdp/linear_flows.py:CheckpointFunction"]}
{"id": "C100", "title": "Training a flow on schedulers gives what training in one process gives", "statement": "If the nodes can be forked and joined properly and training the flow node after node in one process succeeds then ParallelFlow.train on a scheduler, or on one scheduler per node, returns and leaves the nodes in the same states, whatever the order in which the schedulers finish their tasks and whichever nodes cannot be forked; afterwards the flow can be trained or executed again.", "quantifier": "every flow, data, number of tasks and order in which tasks finish", "why_tests_cant": "all schedules and all chunk lists", "anchors": ["mdp/parallel/parallelflows.py:ParallelFlow.train", "mdp/parallel/parallelflows.py:ParallelFlow._next_train_phase", "mdp/parallel/parallelflows.py:ParallelFlow.use_results"]}
{"id": "C101", "title": "Every chunk becomes exactly one task of its phase", "statement": "In a parallel training the tasks given to the schedulers are, phase by phase, the chunks of the node being trained, each once and in order; nodes that cannot be forked and trained nodes give no tasks.", "quantifier": "every flow and data", "why_tests_cant": "all phases and chunk lists", "anchors": ["mdp/parallel/parallelflows.py:ParallelFlow.get_task", "mdp/parallel/parallelflows.py:ParallelFlow.setup_parallel_training"]}
{"id": "C102", "title": "A failed parallel training does not spoil the flow", "statement": "If ParallelFlow.train raises because of a node, the data or a task, the user can correct the cause and call train or execute again.", "quantifier": "every failing training", "why_tests_cant": "every point of failure", "anchors": ["mdp/parallel/parallelflows.py:ParallelFlow.train", "mdp/parallel/parallelflows.py:ParallelFlow.setup_parallel_training"]}
{"id": "C103", "title": "Parallel execution gives the result of sequential execution", "statement": "ParallelFlow.execute on a scheduler returns the outputs of all chunks in the order of the chunks, whatever the order in which the tasks finish, stops at the node nodenr, raises if a chunk cannot be executed, and joins what the nodes have recorded during this execution into the nodes.", "quantifier": "every flow, chunk list, order in which tasks finish and earlier use of the scheduler", "why_tests_cant": "all schedules and histories", "anchors": ["mdp/parallel/parallelflows.py:ParallelFlow.execute", "mdp/parallel/parallelflows.py:ExecuteResultContainer", "mdp/parallel/parallelflows.py:FlowExecuteCallable"]}
{"id": "C104", "title": "ParallelCheckpointFlow calls the checkpoints", "statement": "ParallelCheckpointFlow.train calls the checkpoint function of every node exactly once, after the last training phase of that node and before the training of the next one, with or without a scheduler.", "quantifier": "every flow, data and checkpoint functions", "why_tests_cant": "all flows and schedules", "anchors": ["mdp/parallel/parallelflows.py:ParallelCheckpointFlow"]}
{"id": "C105", "title": "Schedulers given per node are used for their node and shut down once", "statement": "If an iterable of schedulers is given to ParallelFlow.train, the tasks of node i go to scheduler i, and every scheduler up to that of the last node trained on one is shut down exactly once, the others not at all; a single scheduler is not shut down.", "quantifier": "every flow, data and iterable of schedulers", "why_tests_cant": "all numbers of nodes and phases", "anchors": ["mdp/parallel/parallelflows.py:ParallelFlow.train"]}
{"id": "C106", "title": "Linear regression minimises the squared error over all training data", "statement": "After any sequence of train calls and stop_training the coefficients of a LinearRegressionNode make the sum of squared errors over all observations of all accepted chunks minimal among all coefficients, with and without bias; if the data are exactly linear then execute reproduces them; chunks with different numbers of inputs and targets are refused and do not count; stopping without data raises.", "quantifier": "every number of dimensions, every data and chunking", "why_tests_cant": "all data, all rival coefficients", "anchors": ["mdp/nodes/regression_nodes.py:LinearRegressionNode"]}
{"id": "C107", "title": "OnlineCenteringNode subtracts the average of what it has seen", "statement": "Whatever the chunks, the average of an OnlineCenteringNode is the mean of all samples (or the exponentially weighted average if avg_n is given), execute subtracts it, inverse undoes execute, and training is refused after stop_training.", "quantifier": "every sequence of chunks and data", "why_tests_cant": "all histories", "anchors": ["mdp/nodes/stats_nodes_online.py:OnlineCenteringNode"]}
{"id": "C108", "title": "OnlineTimeDiffNode gives differences of consecutive samples", "statement": "After training on samples ending with a chunk, execute on that chunk returns the differences to the preceding samples, one per sample, however the samples were chunked and for incremental and batch training.", "quantifier": "every sequence of chunks and data", "why_tests_cant": "all histories", "anchors": ["mdp/nodes/stats_nodes_online.py:OnlineTimeDiffNode"]}
{"id": "C109", "title": "PCA outputs are uncorrelated and capture as much variance as possible", "statement": "After training on any chunks the outputs of a PCANode for the training data have mean zero, are pairwise uncorrelated, have the variances given by the attribute d in descending order, and for every k the first k of them have at least as much variance as any k orthogonal directions; total_variance and explained_variance are the sum of the variances of the inputs and the share of the outputs.", "quantifier": "every data set with two or more rows, chunking, dimension and configuration", "why_tests_cant": "all data and all rival directions", "anchors": ["mdp/nodes/pca_nodes.py:PCANode"]}
{"id": "C110", "title": "PCANode keeps the number of components asked for", "statement": "With output_dim a number, that many components are kept, with none given all of them; with output_dim a fraction, the smallest number of components that explains this fraction of the variance; with reduce exactly those whose variance exceeds var_abs, var_rel times the largest one and var_part times the total, or training raises if there is none.", "quantifier": "every data set, chunking, dimension and configuration", "why_tests_cant": "all data and thresholds", "anchors": ["mdp/nodes/pca_nodes.py:PCANode._stop_training", "mdp/nodes/pca_nodes.py:PCANode._adjust_output_dim"]}
{"id": "C111", "title": "PCA reconstruction", "statement": "execute undoes inverse for up to output_dim numbers; more are refused; inverse undoes execute if all components are kept; otherwise the squared reconstruction errors of the training data add up to (n-1) times the variance not kept.", "quantifier": "every data set, chunking and configuration, every input", "why_tests_cant": "all inputs", "anchors": ["mdp/nodes/pca_nodes.py:PCANode._execute", "mdp/nodes/pca_nodes.py:PCANode._inverse"]}
{"id": "C112", "title": "Whitened outputs have unit covariance", "statement": "After training the outputs of a WhiteningNode for the training data have mean zero, variance one and are uncorrelated; its inverse reconstructs what the inverse of the PCANode reconstructs.", "quantifier": "every data set, chunking and configuration", "why_tests_cant": "all data", "anchors": ["mdp/nodes/pca_nodes.py:WhiteningNode"]}
{"id": "C113", "title": "SFA outputs are decorrelated and ordered by slowness", "statement": "After training an SFANode with any chunks of two or more samples its outputs for the training samples have mean zero, variance one and are pairwise uncorrelated; their delta values (sum of squared changes within the chunks, over their number minus one) are the attribute d in ascending order; there are output_dim outputs, or as many as inputs; execute(x, n) gives the first n; more outputs than inputs are refused.", "quantifier": "every data set, chunking, include_last_sample and dimension", "why_tests_cant": "all data and chunkings", "anchors": ["mdp/nodes/sfa_nodes.py:SFANode"]}
{"id": "C114", "title": "SFA outputs are the slowest linear features", "statement": "For every m no m linear functions of the input that have variance one and are uncorrelated on the training samples have a smaller sum of delta values than the first m outputs of a trained SFANode.", "quantifier": "every data set, chunking and all rival functions", "why_tests_cant": "all rival functions", "anchors": ["mdp/nodes/sfa_nodes.py:SFANode"]}
{"id": "C115", "title": "SFA training can be completed after a failure of the solver", "statement": "If stop_training of an SFANode raises because the eigenvalue solver failed or gave negative eigenvalues, calling it again with another solver has the result it would have had at first, without training again; in between train is refused and changes nothing.", "quantifier": "every training history and every pair of solvers (that leave their arguments unchanged)", "why_tests_cant": "all histories and failures", "anchors": ["mdp/nodes/sfa_nodes.py:SFANode._stop_training", "mdp/nodes/sfa_nodes.py:SFANode.set_rank_deficit_method"]}
{"id": "C116", "title": "SFA inverse", "statement": "execute undoes inverse for every output vector of an SFANode, and inverse undoes execute if all components are kept.", "quantifier": "every data set and every vector", "why_tests_cant": "all inputs", "anchors": ["mdp/nodes/sfa_nodes.py:SFANode._inverse", "mdp/nodes/sfa_nodes.py:SFANode._execute"]}
{"id": "C117", "title": "The quadratic form of an SFA2Node output is that output", "statement": "For every trained SFA2Node and every output nr the form returned by get_quadratic_form(nr) is symmetric and its apply gives for every input exactly the output nr of the node.", "quantifier": "every trained node, output number and input", "why_tests_cant": "all dimensions and inputs", "anchors": ["mdp/nodes/sfa_nodes.py:SFA2Node.get_quadratic_form", "mdp/utils/quad_forms.py:QuadraticForm.apply"]}
{"id": "C118", "title": "SFA2 outputs are the slowest quadratic features", "statement": "After training the outputs of an SFA2Node for the training samples have mean zero, variance one, are uncorrelated, and no m quadratic functions of the input with these properties have a smaller sum of delta values than the first m outputs.", "quantifier": "every data set, chunking, dimension and all rival quadratic functions", "why_tests_cant": "all rival functions", "anchors": ["mdp/nodes/sfa_nodes.py:SFA2Node"]}
{"id": "C119", "title": "An SFA2Node has output_dim outputs", "statement": "The rows returned by execute of a trained SFA2Node have length output_dim.", "quantifier": "every data set and output dimension", "why_tests_cant": "all dimensions", "anchors": ["mdp/nodes/sfa_nodes.py:SFA2Node._set_range", "mdp/nodes/sfa_nodes.py:SFA2Node._stop_training"]}
{"id": "C120", "title": "get_extrema returns optimal vectors", "statement": "The vectors returned by QuadraticForm.get_extrema have the largest and the smallest value of the form among all vectors of the same length, except that a linear part below the machine precision is left out, which changes the values by no more than twice the length times the sum of its entries; the call ends.", "quantifier": "every symmetric form, length and tolerance, all rival vectors", "why_tests_cant": "all rival vectors and all numbers of bisection steps", "anchors": ["mdp/utils/quad_forms.py:QuadraticForm.get_extrema", "mdp/utils/quad_forms.py:QuadraticForm._maximize"]}
{"id": "C121", "title": "get_extrema returns vectors of the length asked for", "statement": "For every symmetric form and positive length get_extrema returns, and the vectors have this length up to the tolerance or lie inside the ball as extrema of the whole form.", "quantifier": "every symmetric form, length and tolerance", "why_tests_cant": "all forms", "anchors": ["mdp/utils/quad_forms.py:QuadraticForm.get_extrema", "mdp/utils/quad_forms.py:QuadraticForm._maximize"]}
{"id": "C122", "title": "SFA on data of any rank with a rank deficit method", "statement": "An SFANode with rank_deficit_method 'pca', 'svd' or 'auto' can be trained on data of any rank above zero, provided the first variable is constant or correlated with all others and the eigenvalues of the covariance matrix are zero or at least rank_threshold: the outputs for the training samples have mean zero, variance one, are uncorrelated, are ordered by slowness with delta values d and are the slowest such linear functions; rank_deficit is the number of inputs minus the rank.", "quantifier": "every data set of this kind, chunking and output dimension, all rival functions", "why_tests_cant": "all data of all ranks", "anchors": ["mdp/utils/symeig_semidefinite.py:symeig_semidefinite_pca", "mdp/utils/symeig_semidefinite.py:symeig_semidefinite_svd", "mdp/nodes/sfa_nodes.py:SFANode"]}
{"id": "C123", "title": "An SFANode with a rank deficit method has output_dim outputs", "statement": "The rows returned by execute of an SFANode that was trained with a rank deficit method have length output_dim.", "quantifier": "every data set and output dimension", "why_tests_cant": "all ranks", "anchors": ["mdp/nodes/sfa_nodes.py:SFANode._set_range", "mdp/nodes/sfa_nodes.py:SFANode._stop_training"]}
{"id": "C124", "title": "Rank deficit methods leave out constant inputs only", "statement": "With rank_deficit_method 'pca', 'svd', 'ldl' or 'auto' inputs whose variance is not negligible take part in the solution; constant ones do not.", "quantifier": "every covariance matrix and threshold", "why_tests_cant": "all matrices", "anchors": ["mdp/utils/symeig_semidefinite.py:_find_blank_data_idx", "mdp/nodes/sfa_nodes.py:SFANode.set_rank_deficit_method"]}
{"id": "C125", "title": "symeig solves the generalised eigenvalue problem", "statement": "For symmetric A and positive definite B the fallback of mdp.utils.symeig(A, B) returns the eigenvalues in ascending order and eigenvectors with A v = lambda B v that are orthonormal for B; with range (1, k) it returns the first k of them, and out-of-range limits are moved into the range.", "quantifier": "every pair of matrices and every range", "why_tests_cant": "all matrices", "anchors": ["mdp/utils/_symeig.py:_symeig_fake", "mdp/utils/_symeig.py:wrap_eigh"]}
{"id": "C126", "title": "rank_deficit tells the number of redundant inputs", "statement": "After stop_training with rank_deficit_method 'pca' or 'svd' the attribute rank_deficit is the number of inputs minus the rank of the covariance matrix.", "quantifier": "every data set and every earlier attempt", "why_tests_cant": "all histories of attempts", "anchors": ["mdp/utils/symeig_semidefinite.py:symeig_semidefinite_svd", "mdp/utils/symeig_semidefinite.py:symeig_semidefinite_pca"]}
{"id": "C127", "title": "Recursive expansions compute every product exactly once", "statement": "A RecursiveExpansionNode of degree d returns for every row the products of functions of single variables over all combinations of orders of total degree at most d, each exactly once and in the same order for all rows, beginning with the constant (left out without with0) and the single variables; the functions are powers, Legendre polynomials, rational Legendre functions or Chebyshev polynomials.", "quantifier": "every degree, number of variables, family and row", "why_tests_cant": "all degrees and dimensions, all rows", "anchors": ["mdp/nodes/recursive_expansion_nodes.py:RecursiveExpansionNode._execute", "mdp/nodes/recursive_expansion_nodes.py:process", "mdp/nodes/recursive_expansion_nodes.py:recf_legendre_poly"]}
{"id": "C128", "title": "A RecursiveExpansionNode has output_dim outputs", "statement": "The rows returned by execute of a RecursiveExpansionNode have length output_dim.", "quantifier": "every degree, number of variables, family and row", "why_tests_cant": "all degrees and dimensions", "anchors": ["mdp/nodes/recursive_expansion_nodes.py:RecursiveExpansionNode.expanded_dim", "mdp/nodes/recursive_expansion_nodes.py:RecursiveExpansionNode._execute"]}
{"id": "C129", "title": "The domain check of recursive expansions", "statement": "check_domain passes exactly if there are values and all of them lie in the domain of the family, widened by the tolerance.", "quantifier": "every array, domain and tolerance", "why_tests_cant": "all arrays", "anchors": ["mdp/nodes/recursive_expansion_nodes.py:RecursiveExpansionNode.check_domain"]}
{"id": "C130", "title": "The extrema collected by a NormalizingRecursiveExpansionNode do not depend on the chunks", "statement": "After training, the extrema per column and over all columns are those of all the training data, however these were cut into chunks.", "quantifier": "every data set and every partition into chunks", "why_tests_cant": "all partitions", "anchors": ["mdp/nodes/recursive_expansion_nodes.py:NormalizingRecursiveExpansionNode._train"]}
{"id": "C131", "title": "A NormalizingRecursiveExpansionNode maps the data into the domain", "statement": "After training, every row within the range of the training data is mapped into the domain of the family, so that execute on training data does not raise; the order of the values in a column is kept, data strictly inside a bounded domain are not changed, and for a domain bounded below only the shift is the smallest possible one.", "quantifier": "every data set, chunking and domain", "why_tests_cant": "all data sets", "anchors": ["mdp/nodes/recursive_expansion_nodes.py:NormalizingRecursiveExpansionNode._stop_training", "mdp/nodes/recursive_expansion_nodes.py:NormalizingRecursiveExpansionNode._execute"]}
{"id": "C132", "title": "execute of a NormalizingRecursiveExpansionNode leaves its argument alone", "statement": "execute does not change the array it is given; executing the same array twice gives the same result.", "quantifier": "every data set and array", "why_tests_cant": "all arrays and histories", "anchors": ["mdp/nodes/recursive_expansion_nodes.py:NormalizingRecursiveExpansionNode._execute", "mdp/utils/routines.py:refcast"]}
{"id": "C133", "title": "The graph of a growing neural gas stays well-formed", "statement": "Whatever the start positions, random draws, data and chunks (lambda_ nonzero, max_age nonnegative), training a GrowingNeuralGasNode does not raise; afterwards the graph has at least two nodes and at most max_nodes (if that is at least two), edges join two different nodes of the graph, no two edges join the same nodes, no edge is older than max_age, and every node has an edge once a point has been presented.", "quantifier": "every parameter set, every start, every sequence of chunks", "why_tests_cant": "all training histories", "anchors": ["mdp/nodes/neural_gas_nodes.py:GrowingNeuralGasNode._train", "mdp/nodes/neural_gas_nodes.py:GrowingNeuralGasNode._remove_old_edges", "mdp/nodes/neural_gas_nodes.py:GrowingNeuralGasNode._insert_new_node"]}
{"id": "C134", "title": "A growing neural gas stays within the data", "statement": "If eps_b and eps_n lie between 0 and 1, every convex set (e.g. a box) that contains the start positions and the data contains the positions of all nodes after training.", "quantifier": "every convex set, every training history", "why_tests_cant": "all histories and all convex sets", "anchors": ["mdp/nodes/neural_gas_nodes.py:GrowingNeuralGasNode._move_node", "mdp/nodes/neural_gas_nodes.py:GrowingNeuralGasNode._insert_new_node"]}
{"id": "C135", "title": "The effect of a data point on a growing neural gas", "statement": "A point moves the nearest node by the fraction eps_b and its neighbours by eps_n, and no other node; the edges of the nearest node age by one except the one to the second nearest, which is created or renewed with age zero; exactly the edges of the nearest node beyond max_age and then the nodes without edges disappear. With every lambda_-th point, as long as there are fewer than max_nodes nodes, a node is inserted halfway between the node with the largest error and its neighbour with the largest error, the edge between these being replaced by two edges to the new node.", "quantifier": "every reachable state and point", "why_tests_cant": "all histories", "anchors": ["mdp/nodes/neural_gas_nodes.py:GrowingNeuralGasNode._train", "mdp/nodes/neural_gas_nodes.py:GrowingNeuralGasNode._insert_new_node"]}
{"id": "C136", "title": "nearest_neighbor returns the nearest node", "statement": "After any training nearest_neighbor returns for every point a node of the graph such that no other node is nearer, with its distance.", "quantifier": "every training history and every list of points", "why_tests_cant": "all histories and points", "anchors": ["mdp/nodes/neural_gas_nodes.py:GrowingNeuralGasNode.nearest_neighbor", "mdp/nodes/neural_gas_nodes.py:GrowingNeuralGasNode._get_nearest_nodes"]}
{"id": "C137", "title": "Training a neural gas does not change the arrays given as start_poss", "statement": "The arrays passed as start_poss keep their values during training.", "quantifier": "every start and training history", "why_tests_cant": "all histories", "anchors": ["mdp/nodes/neural_gas_nodes.py:GrowingNeuralGasNode.__init__", "mdp/nodes/neural_gas_nodes.py:GrowingNeuralGasNode._move_node", "mdp/utils/routines.py:refcast"]}
{"id": "C138", "title": "Training of a neural gas", "statement": "With at least two nodes, training a NeuralGasNode does not raise and keeps the number of nodes and a graph without loops and double edges. A point moves the node of rank j (by distance) by the fraction epsilon*exp(-j/lambda), renews the edge between the two nearest nodes and ages the others; edges within the maximal age stay; epsilon, and the maximal age, go from their initial to their final values. Positions stay in every convex set with the start positions and the data, if the epsilons are at most one.", "quantifier": "every start, schedule, permutation of the data and number of epochs", "why_tests_cant": "all histories", "anchors": ["mdp/nodes/neural_gas_nodes.py:NeuralGasNode._train", "mdp/nodes/neural_gas_nodes.py:NeuralGasNode._rank_nodes_by_distance"]}
{"id": "C139", "title": "No edge of a neural gas is older than the maximal age", "statement": "After every data point presented to a NeuralGasNode no edge is older than the maximal age of the present epoch.", "quantifier": "every schedule of maximal ages and training history", "why_tests_cant": "all histories", "anchors": ["mdp/nodes/neural_gas_nodes.py:NeuralGasNode._remove_old_edges", "mdp/nodes/neural_gas_nodes.py:NeuralGasNode._train"]}
{"id": "C140", "title": "A CloneBiLayer runs its nodes side by side", "statement": "execute and train of a CloneBiLayer call every node once, in order, with its block of columns of the data, and with the message in which every array with as many columns as the layer has inputs is cut to that block; the result has the columns of all results side by side, and the target of the last node that gives one. stop_training ends every copy in the same way, and a shared node once.", "quantifier": "every node, state, data array, message and number of nodes", "why_tests_cant": "all arrays, messages and node behaviours", "anchors": ["bimdp/hinet/bilayer.py:CloneBiLayer._execute", "bimdp/hinet/bilayer.py:CloneBiLayer._train", "bimdp/hinet/bilayer.py:CloneBiLayer"]}
{"id": "C141", "title": "Messages pass through a CloneBiLayer", "statement": "The outgoing message of a CloneBiLayer has the entries of the last message of its nodes, where an array that is not the same object in all messages is replaced by the arrays of all nodes side by side; nodes that hand on their message make a layer that hands on its message.", "quantifier": "every node behaviour and message", "why_tests_cant": "all messages and node behaviours", "anchors": ["bimdp/hinet/bilayer.py:CloneBiLayer", "bimdp/hinet/bilayer.py:CloneBiLayer._get_combined_message"]}
{"id": "C142", "title": "use_copies of a CloneBiLayer does not change what is computed", "statement": "A CloneBiLayer can be switched between one shared node and copies of it, and gives the same results either way as long as calls leave the state of the node alone.", "quantifier": "every node, data array and message", "why_tests_cant": "all nodes and histories", "anchors": ["bimdp/hinet/bilayer.py:CloneBiLayer._set_use_copies"]}
{"id": "C143", "title": "Messages switch a CloneBiLayer to copies", "statement": "An entry use_copies in the message, plain or addressed to the layer, switches the layer to copies before its nodes are called; in the message the nodes give back, such an entry switches it afterwards and is removed. The layer gets the message without the entries addressed to it, and a target in the message becomes that of the result.", "quantifier": "every message and layer state", "why_tests_cant": "all messages", "anchors": ["bimdp/hinet/bilayer.py:CloneBiLayer._extract_message_copy_flag", "bimdp/hinet/bilayer.py:CloneBiLayer._execute"]}
{"id": "C144", "title": "A BiSwitchboard routes data and messages alike", "statement": "execute of a BiSwitchboard routes the data and every array of the message with as many columns as there are inputs; other entries are unchanged; for an invertible switchboard inverse undoes execute for data and message; otherwise inverse of data is refused.", "quantifier": "every list of connections, array and message", "why_tests_cant": "all connections and messages", "anchors": ["bimdp/hinet/biswitchboard.py:BiSwitchboard._execute", "bimdp/hinet/biswitchboard.py:BiSwitchboard._inverse"]}
{"id": "C145", "title": "A BiFlowNode executes like its flow", "statement": "Executing a BiFlowNode is executing the flow it contains, from the first node or from the inner node whose id was asked for, and its result, with targets, is that of the flow; it returns if and only if the flow returns; afterwards no request is left. A BiFlowNode answers requests for its own id and the ids of its nodes; bi_reset forgets requests.", "quantifier": "every inner flow, data, message and request", "why_tests_cant": "all executions with jumps", "anchors": ["bimdp/hinet/biflownode.py:BiFlowNode._execute", "bimdp/hinet/biflownode.py:BiFlowNode._get_target", "bimdp/hinet/biflownode.py:BiFlowNode._request_node_id", "bimdp/hinet/biflownode.py:BiFlowNode._bi_reset"]}
{"id": "C146", "title": "A BiFlowNode trains like its flow", "statement": "The training phases of a BiFlowNode are the open phases of its nodes in order; train and stop_training of a phase do to the inner nodes what the training of the flow would do.", "quantifier": "every inner flow, data and message", "why_tests_cant": "all training histories", "anchors": ["bimdp/hinet/biflownode.py:BiFlowNode._get_train_seq", "bimdp/hinet/biflownode.py:BiFlowNode._get_train_function", "bimdp/hinet/biflownode.py:BiFlowNode._get_stop_training_function"]}
{"id": "C147", "title": "Coroutine methods of a BiNode continue where they stopped", "statement": "For a method decorated with binode_coroutine, whatever calls of this and of other coroutine methods and whatever resets came before: a call gives what the body yields (or returns) when it is run with the arguments of all calls since it was started; it starts again after its end, after an exception and after bi_reset, which removes all coroutines.", "quantifier": "every body and history of calls and resets", "why_tests_cant": "all histories and interleavings", "anchors": ["bimdp/binode.py:binode_coroutine", "bimdp/binode.py:BiNode._coroutine_interface", "bimdp/binode.py:BiNode._coroutine_initialization", "bimdp/binode.py:BiNode.bi_reset"]}
{"id": "C148", "title": "Hierarchical networks can be trained in parallel", "statement": "For a network of layers, clone layers and flow nodes, nested to any depth, whose nodes can be forked and joined: forking the network for every job, training every fork with its nonempty job and joining the forks gives exactly the network that training it with all chunks in the order of the joins would give, and fails only if that would.", "quantifier": "every network, nesting depth, nodes that obey the law, number and split of jobs", "why_tests_cant": "all networks and splits", "anchors": ["mdp/parallel/parallelhinet.py:ParallelFlowNode", "mdp/parallel/parallelhinet.py:ParallelLayer", "mdp/parallel/parallelhinet.py:ParallelCloneLayer"]}
{"id": "C149", "title": "What nodes gather in execution survives parallel execution", "statement": "For a trained network that asks to be forked for execution (use_execute_fork): executing jobs in forks and joining the forks gives the outputs and the network that executing all jobs in the network would give.", "quantifier": "every network, jobs and splits", "why_tests_cant": "all networks and splits", "anchors": ["mdp/parallel/parallelhinet.py:ParallelFlowNode._join", "mdp/parallel/parallelhinet.py:ParallelLayer._join", "mdp/parallel/parallelnodes.py:ParallelExtensionNode.use_execute_fork"]}
{"id": "C150", "title": "Copies of a parallel CloneBiLayer are merged without loss", "statement": "With the parallel extension a CloneBiLayer can be switched to copies and back to a single node during training: the single node has then been trained with all that its copies were trained with, and what it was trained with before, once; a layer with copies can be forked and joined copy by copy.", "quantifier": "every node, number of copies, history of training and switches", "why_tests_cant": "all histories", "anchors": ["bimdp/parallel/parallelbihinet.py:ParallelCloneBiLayer._set_use_copies", "bimdp/parallel/parallelbihinet.py:ParallelCloneBiLayer._fork", "bimdp/parallel/parallelbihinet.py:ParallelCloneBiLayer._join"]}
{"id": "C151", "title": "The gradient of a flow is its Jacobian matrix", "statement": "With the gradient extension, executing a flow with method 'gradient' gives the outputs of a normal execution and, in the message, for every sample the matrix of partial derivatives of the outputs of the whole flow by its inputs: for identity, SFA, quadratic expansion and SFA2 nodes, layers nested to any depth, switchboards and clone layers. Nodes in training or without a gradient raise.", "quantifier": "every flow of such nodes, all parameters, dimensions and inputs", "why_tests_cant": "all networks and real inputs; derivatives are limits", "anchors": ["bimdp/nodes/gradient.py:GradientExtensionNode._gradient", "bimdp/nodes/gradient.py:_quadex_grad", "bimdp/nodes/gradient.py:_layer_grad", "bimdp/nodes/gradient.py:_switchboard_gradient", "bimdp/hinet/bilayer.py:CloneBiLayer._execute"]}
{"id": "C152", "title": "A gradient is right or refused, whatever the layers", "statement": "For every kind of layer and every place in the flow, asking for the gradient gives the Jacobian matrix or raises an error.", "quantifier": "Layer, SameInputLayer, CloneBiLayer; every place in the flow", "why_tests_cant": "all networks", "anchors": ["bimdp/nodes/gradient.py:_layer_grad", "mdp/hinet/layer.py:SameInputLayer", "bimdp/hinet/bilayer.py:CloneBiLayer._get_method"]}
{"id": "C153", "title": "Incremental training does not depend on the chunks", "statement": "For an online node in incremental training whose parameters are initialised once: training with a list of chunks gives the same node, the same iteration count and the same exception as training with all their samples in one array.", "quantifier": "every node class with this kind of initialisation, data, cut into chunks", "why_tests_cant": "all histories and all cuts", "anchors": ["mdp/signal_node_online.py:OnlineNode.train", "mdp/signal_node_online.py:OnlineNode._check_params"]}
{"id": "C154", "title": "The nodes of an online layer are trained side by side", "statement": "Training an OnlineLayer (SameInputOnlineLayer) returns if and only if every inner node in training accepts its own columns (all columns) of the data, and then every inner node is what it would be had it been trained alone with these, sample by sample or with the whole array according to the training type of the layer; nodes not in training are left alone. stop_training stops all nodes in training. The training type is inferred from the nodes and can not be changed once set; ordinary nodes in training are refused.", "quantifier": "every list of nodes, data and training type", "why_tests_cant": "all nodes and histories", "anchors": ["mdp/hinet/layer_online.py:OnlineLayer", "mdp/hinet/layer_online.py:SameInputOnlineLayer", "mdp/hinet/layer.py:Layer._train"]}
{"id": "C155", "title": "Executing an online layer executes its nodes", "statement": "execute of an OnlineLayer gives, for every sample, the concatenation of what the inner nodes give for their columns; a layer that was not trained is first trained with the data once, like every online node.", "quantifier": "every list of nodes, data and state of the layer", "why_tests_cant": "all nodes and histories", "anchors": ["mdp/hinet/layer_online.py:OnlineLayer", "mdp/hinet/layer.py:Layer._execute", "mdp/hinet/layer.py:Layer._pre_execution_checks"]}
{"id": "C156", "title": "A CloneOnlineLayer trains its node with all parts of the data", "statement": "Training a CloneOnlineLayer with n clones trains the node with the n parts of the data from left to right: of one sample after the other in incremental training, of the whole array in batch training; it returns if and only if the node accepts all parts.", "quantifier": "every node, number of clones, data and training type", "why_tests_cant": "all nodes and data", "anchors": ["mdp/hinet/layer_online.py:CloneOnlineLayer", "mdp/hinet/layer.py:Layer._train"]}
{"id": "C157", "title": "Every GSFA training mode is its training graph", "statement": "Training a GSFANode adds to its accumulators exactly the weighted sums for the training graph that the mode stands for: chain, single samples, clusters of one size or of a list of sizes, serial, mixed, mirrored and truncated windows, a dictionary of edges, classes; for every weight and every earlier content.", "quantifier": "every data array, weight, block size, window and label list within the stated limits, every earlier training", "why_tests_cant": "all data sizes and values", "anchors": ["mdp/nodes/gsfa_nodes.py:CovDCovMatrix", "mdp/nodes/gsfa_nodes.py:GSFANode._train"]}
{"id": "C158", "title": "A graph given as an array is the graph given as a dictionary", "statement": "train_mode 'graph' with edge weights in an array does the same as with the same edge weights in a dictionary.", "quantifier": "every data array, node and edge weights", "why_tests_cant": "all graphs", "anchors": ["mdp/nodes/gsfa_nodes.py:CovDCovMatrix.update_graph"]}
{"id": "C159", "title": "Fast versions of the sliding windows give the same result", "statement": "'mirror_window' gives the same as 'smirror_window', and 'fwindow' the same as 'window', for all data and widths.", "quantifier": "every data array and width", "why_tests_cant": "all sizes", "anchors": ["mdp/nodes/gsfa_nodes.py:CovDCovMatrix.update_mirroring_sliding_window", "mdp/nodes/gsfa_nodes.py:CovDCovMatrix.update_fast_sliding_window"]}
{"id": "C160", "title": "Sliding windows give weighted averages of the data", "statement": "After training with 'window' or 'fwindow' the average of the node is a weighted average of the samples; data that do not change have this value as average and variance zero.", "quantifier": "every data array and width", "why_tests_cant": "all sizes", "anchors": ["mdp/nodes/gsfa_nodes.py:CovDCovMatrix.update_sliding_window"]}
{"id": "C161", "title": "Modes in a list do what each of them does alone, and wrong arguments are refused", "statement": "Training with a list of modes adds the graphs of the modes with the arguments of the call; arguments that do not fit the data raise an error before anything is added; a graph without edges adds nothing.", "quantifier": "every list of modes, arguments and data", "why_tests_cant": "all combinations", "anchors": ["mdp/nodes/gsfa_nodes.py:GSFANode._train", "mdp/nodes/gsfa_nodes.py:CovDCovMatrix.update_serial", "mdp/nodes/gsfa_nodes.py:CovDCovMatrix.update_clustered"]}
{"id": "C162", "title": "Outputs of a GSFA node are normalised and ordered on the training graphs", "statement": "After training with any sequence of graphs with nonnegative edges, the outputs have weighted mean zero, weighted variance one, and are pairwise uncorrelated; their weighted delta values are the attribute d, in ascending order; n selects the first n outputs.", "quantifier": "every sequence of training calls, data, output dimension; every solver that returns generalised eigenvectors", "why_tests_cant": "all data and histories", "anchors": ["mdp/nodes/gsfa_nodes.py:GSFANode._stop_training", "mdp/nodes/gsfa_nodes.py:GSFANode._execute", "mdp/nodes/gsfa_nodes.py:CovDCovMatrix.fix"]}
{"id": "C163", "title": "A GSFA node finds the slowest features on the training graphs", "statement": "No m linear functions of the input with weighted variance one that are uncorrelated have a smaller sum of weighted delta values than the first m outputs.", "quantifier": "every sequence of training calls and every m linear functions", "why_tests_cant": "a minimum over an infinite set", "anchors": ["mdp/nodes/gsfa_nodes.py:GSFANode._stop_training"]}
{"id": "C164", "title": "A GSFA node can retry after the eigenvalue solver failed", "statement": "If stop_training raises, the data gathered are kept, and a later call with another solver does what it would have done at first.", "quantifier": "every state of the node, every pair of solvers", "why_tests_cant": "all failures", "anchors": ["mdp/nodes/gsfa_nodes.py:GSFANode._stop_training"]}
{"id": "C165", "title": "Classification does not depend on the order of the samples", "statement": "Training in the mode 'classification' with samples and labels in another order leaves the node in the same state.", "quantifier": "every data array, labels, permutation, and every way of sorting equal labels", "why_tests_cant": "all permutations", "anchors": ["mdp/nodes/gsfa_nodes.py:GSFANode._train"]}
{"id": "C166", "title": "Accumulators of GSFA can be joined", "statement": "add_cov_dcov_matrix gives the accumulators for the graphs of both objects, with their weights multiplied by the given factors.", "quantifier": "every history of both objects and all factors", "why_tests_cant": "all histories", "anchors": ["mdp/nodes/gsfa_nodes.py:CovDCovMatrix.add_cov_dcov_matrix"]}
{"id": "C167", "title": "Updates of CCIPCANode use weights that sum up to one, and give unit vectors", "statement": "The weights of the old vector and of the new sample sum up to one for all parameters; for the default parameters both are positive, and before the n1-th sample they form the plain average. After each training sample every column of v has length one and d holds the length of the unnormalised vector (for CCIPCAWhiteningNode: the columns times the square root of d have length one).", "quantifier": "every sample number, parameters, history and input", "why_tests_cant": "all histories of samples", "anchors": ["mdp/nodes/pca_nodes_online.py:CCIPCANode._amnesic", "mdp/nodes/pca_nodes_online.py:CCIPCANode._train", "mdp/nodes/pca_nodes_online.py:CCIPCAWhiteningNode._train"]}
{"id": "C168", "title": "Training CCIPCANode never divides by zero", "statement": "With default amnesic parameters and non-zero random initial vectors, training with any sequence of samples raises no exception and divides by no zero.", "quantifier": "every sequence of samples, number of components, initial vectors", "why_tests_cant": "all sequences of samples, all magnitudes", "anchors": ["mdp/nodes/pca_nodes_online.py:CCIPCANode._train"]}
{"id": "C169", "title": "The first component of CCIPCANode is an average of projections", "statement": "Up to the n1-th sample the first unnormalised vector is the average of the initial vector and of the samples, each multiplied by its projection on the unit vector found so far.", "quantifier": "every sequence of samples shorter than n1", "why_tests_cant": "all sequences", "anchors": ["mdp/nodes/pca_nodes_online.py:CCIPCANode._train"]}
{"id": "C170", "title": "get_reduced_dimsensionality gives the number of components within the variance ratio", "statement": "The reduced dimensionality is the largest number of leading components whose explained variance is at most var_rel times the total variance.", "quantifier": "every state and sample", "why_tests_cant": "all samples", "anchors": ["mdp/nodes/pca_nodes_online.py:CCIPCANode.get_reduced_dimsensionality", "mdp/nodes/pca_nodes_online.py:CCIPCANode._train"]}
{"id": "C171", "title": "CCIPCANode execute and inverse", "statement": "execute(x, n) gives the first n entries of execute(x); inverse(execute(x)) is the sum of the projections of x on the components, which is x if there are as many outputs as inputs; inverse accepts n as execute does.", "quantifier": "every trained node and input", "why_tests_cant": "all inputs", "anchors": ["mdp/nodes/pca_nodes_online.py:CCIPCANode._execute", "mdp/nodes/pca_nodes_online.py:CCIPCANode._inverse", "mdp/nodes/pca_nodes_online.py:CCIPCAWhiteningNode.get_recmatrix"]}
{"id": "C172", "title": "Initial vectors and training type given to online PCA and MCA nodes are honoured", "statement": "A node constructed with init_eigen_vectors starts training from them, as one to which they are assigned; in batch training chunks are accepted.", "quantifier": "all initial vectors, chunks and parameters", "why_tests_cant": "all parameters", "anchors": ["mdp/nodes/pca_nodes_online.py:CCIPCANode.init_eigen_vectors", "mdp/nodes/mca_nodes_online.py:MCANode.init_eigen_vectors"]}
{"id": "C173", "title": "Updates of MCANode give unit vectors, and stay at the minor component", "statement": "After each update with normalisation the columns of v have length one. A unit eigenvector of the autocorrelation of the chunk is not moved by the first component's update, and only eigenvectors are not moved. A chunk whose eigenvalues are small enough cannot make it divide by zero. d holds the eigenvalues.", "quantifier": "every state, chunk, learning rate", "why_tests_cant": "all chunks and rates", "anchors": ["mdp/nodes/mca_nodes_online.py:MCANode._train"]}
{"id": "C174", "title": "MCANode converges to the minor component", "statement": "If the same chunk is presented again and again, the projection of the first vector on every eigenvector of its autocorrelation but those of the smallest eigenvalue tends to zero, geometrically.", "quantifier": "every chunk, every pair of eigenvectors with different eigenvalues, every learning rate small enough, every initial vector not orthogonal to the minor component", "why_tests_cant": "a limit over infinite sequences", "anchors": ["mdp/nodes/mca_nodes_online.py:MCANode._train"]}
{"id": "C175", "title": "IncSFANode trains its parts once with each sample", "statement": "Training with a chunk of n samples updates average and whitening n times, and the minor components with each difference within the chunk; the result does not depend on how samples are divided into chunks.", "quantifier": "every chunk, division and parameters", "why_tests_cant": "all divisions", "anchors": ["mdp/nodes/sfa_nodes_online.py:IncSFANode._check_params", "mdp/nodes/sfa_nodes_online.py:IncSFANode._train"]}
{"id": "C176", "title": "IncSFANode works on differences of consecutive samples of an episode", "statement": "The minor components are updated with the difference of two consecutive whitened samples; a sample marked as a new episode does not update them; in batch training with n samples n-1 differences are used, and fewer than two samples are refused.", "quantifier": "every state, sample and chunk", "why_tests_cant": "all histories", "anchors": ["mdp/nodes/sfa_nodes_online.py:IncSFANode._step_train", "mdp/nodes/sfa_nodes_online.py:IncSFANode._check_train_args"]}
{"id": "C177", "title": "IncSFANode outputs are the slow features of centred data", "statement": "execute gives the products of the centred input with sf; sf is the product of whitening vectors and minor components. remove_mean=False leaves out centring.", "quantifier": "every trained node and input", "why_tests_cant": "all histories", "anchors": ["mdp/nodes/sfa_nodes_online.py:IncSFANode._execute", "mdp/nodes/sfa_nodes_online.py:IncSFANode._step_train"]}
{"id": "C178", "title": "CuBICANode filters are an orthogonal matrix", "statement": "For all whitened data and every limit the filters of CuBICANode are orthogonal, and the data whose cumulants the algorithm uses are the outputs of the filters.", "quantifier": "all data (numbers of signals and samples), limits", "why_tests_cant": "all data", "anchors": ["mdp/nodes/ica_nodes.py:CuBICANode.core", "mdp/utils/routines.py:rotate"]}
{"id": "C179", "title": "CuBICANode stops after a bounded number of sweeps and reports the largest angle", "statement": "core performs at most 1+round(sqrt(n)) sweeps over all pairs of n signals, stops at the first whose largest angle is at most limit, and returns the largest angle of the last sweep.", "quantifier": "all data, limits", "why_tests_cant": "all data", "anchors": ["mdp/nodes/ica_nodes.py:CuBICANode.core"]}
{"id": "C180", "title": "CuBICANode rotates each pair by the angle of largest contrast", "statement": "The angle by which two signals are rotated maximises the contrast (sums of squares of the third and fourth order cumulants of the two signals, divided by 3! and 4!) over all angles.", "quantifier": "all data, pairs, angles", "why_tests_cant": "a maximum over a continuum, for all data", "anchors": ["mdp/nodes/ica_nodes.py:CuBICANode.core"]}
{"id": "C181", "title": "CuBICANode leaves separated signals alone", "statement": "Signals whose common cumulants of order three and four vanish are returned as they are, after one sweep, with angle 0.", "quantifier": "all such data", "why_tests_cant": "all data", "anchors": ["mdp/nodes/ica_nodes.py:CuBICANode.core"]}
{"id": "C182", "title": "JADENode filters are an orthogonal matrix with fixed signs", "statement": "Whenever core returns, the filters are orthogonal and the first entry of each is not negative.", "quantifier": "all data, limits, numbers of iterations", "why_tests_cant": "all data", "anchors": ["mdp/nodes/jade.py:JADENode.core"]}
{"id": "C183", "title": "JADENode ends, with filters or with an exception", "statement": "core ends after at most max_it+1 sweeps; it raises NodeException, or returns a basis in which the optimal rotation of every pair is below the threshold.", "quantifier": "all data, limits, numbers of iterations", "why_tests_cant": "all data", "anchors": ["mdp/nodes/jade.py:JADENode.core"]}
{"id": "C184", "title": "JADENode rotates each pair by the angle of largest joint diagonality", "statement": "The angle of a rotation maximises, over all angles, the sum of the squared diagonal entries of the cumulant matrices in the rotated basis.", "quantifier": "all sets of matrices, pairs, angles", "why_tests_cant": "a maximum over a continuum, for all matrices", "anchors": ["mdp/nodes/jade.py:JADENode.core"]}
{"id": "C185", "title": "JADENode diagonalises the matrices of fourth order cumulants", "statement": "The matrices of JADENode are the cumulants of order four of white data (those of two different indices multiplied by sqrt(2)), so that signals which are independent are a maximum of joint diagonality.", "quantifier": "all data", "why_tests_cant": "all data", "anchors": ["mdp/nodes/jade.py:JADENode.core"]}
{"id": "C186", "title": "JADENode leaves separated signals alone", "statement": "Signals whose common cumulants of order four vanish are returned as they are, up to their order.", "quantifier": "all such data, limits, numbers of iterations", "why_tests_cant": "all data", "anchors": ["mdp/nodes/jade.py:JADENode.core"]}
{"id": "C187", "title": "FastICANode in deflation mode returns an orthogonal matrix or raises", "statement": "With approach='defl' core either raises NodeException or returns orthogonal filters; the branch for an unknown nonlinearity is never reached.", "quantifier": "all data, parameters, initial guesses, random samples", "why_tests_cant": "all data and random choices", "anchors": ["mdp/nodes/ica_nodes.py:FastICANode.core"]}
{"id": "C188", "title": "FastICANode in deflation mode: fine-tuning, initial guess", "statement": "Once a component has converged, fine-tuning it ends with a component. An initial guess given by the user is not modified.", "quantifier": "all data, parameters, initial guesses", "why_tests_cant": "all data and random choices", "anchors": ["mdp/nodes/ica_nodes.py:FastICANode.core"]}
{"id": "C189", "title": "FastICANode keeps separated signals", "statement": "If each signal is uncorrelated with the nonlinear function of each other signal, and the initial guess is the identity, the filters are a diagonal matrix of signs, for every nonlinearity and limit.", "quantifier": "all such data, nonlinearities, limits", "why_tests_cant": "all data", "anchors": ["mdp/nodes/ica_nodes.py:FastICANode.core"]}
{"id": "C190", "title": "Stabilised FastICA steps are damped plain steps", "statement": "The stabilised step is the mean of the old vector and a multiple of the plain step, weighted with 1-mu and mu.", "quantifier": "all data, nonlinearities, step sizes", "why_tests_cant": "all data", "anchors": ["mdp/nodes/ica_nodes.py:FastICANode.core"]}
{"id": "C191", "title": "FastICANode in symmetric mode returns an orthogonal matrix or raises", "statement": "With approach='symm' core ends within max_it rounds: it raises, or returns orthogonal filters whose change in the last round is below limit and, if fine-tuning is set, that have been fine-tuned.", "quantifier": "all data, parameters, initial guesses, random samples", "why_tests_cant": "all data and random choices", "anchors": ["mdp/nodes/ica_nodes.py:FastICANode.core"]}
{"id": "C192", "title": "Outputs of ICA nodes are white", "statement": "With orthogonal filters and positive retained variances, the outputs of an ICA node for its training data have mean zero, variance one and are pairwise uncorrelated; this includes CuBICANode and JADENode whenever they return.", "quantifier": "all data, whitening parameters, core routines", "why_tests_cant": "all data", "anchors": ["mdp/nodes/ica_nodes.py:ICANode", "mdp/nodes/pca_nodes.py:WhiteningNode"]}
{"id": "C193", "title": "ICA nodes: inverse undoes execute", "statement": "inverse(execute(x)) is the reconstruction of x from its principal components: x itself if all are kept; the total squared error is n-1 times the variance left out. With whitened=True it is x, and execute keeps lengths. The projection and reconstruction matrices are those of execute and inverse, and their product is the identity.", "quantifier": "all data, parameters, inputs", "why_tests_cant": "all data", "anchors": ["mdp/nodes/ica_nodes.py:ICANode", "mdp/nodes/ica_nodes.py:ProjectMatrixMixin"]}
{"id": "C194", "title": "ICA nodes: telescope mode", "statement": "In telescope mode training gives the result of the core routine for the first 2^p samples, where p is the first power for which it converges, or the largest one, and the whole data are considered.", "quantifier": "all data, core routines, limits", "why_tests_cant": "all numbers of samples", "anchors": ["mdp/nodes/ica_nodes.py:ICANode._stop_training"]}
{"id": "C195", "title": "ICA nodes: training can be repeated after an exception", "statement": "If stop_training raises because there is no convergence, the user can change parameters and call stop_training again, or train with more data.", "quantifier": "all data, core routines, sequences of calls", "why_tests_cant": "all histories", "anchors": ["mdp/nodes/ica_nodes.py:ICANode._stop_training", "mdp/signal_node.py:Cumulator"]}
{"id": "C196", "title": "RBMNode samples from the conditional distributions of its energy", "statement": "For uniform random numbers sample_h and sample_v give each state with its conditional probability under the Boltzmann distribution of energy(v, h); execute gives the conditional probabilities of the hidden variables to be one.", "quantifier": "all weights, dimensions, inputs (also non-binary)", "why_tests_cant": "a statement about distributions, for all weights", "anchors": ["mdp/nodes/rbm_nodes.py:RBMNode"]}
{"id": "C197", "title": "RBMWithLabelsNode samples labels by softmax", "statement": "sample_v gives visible variables and exactly one label with their conditional probability under the Boltzmann distribution restricted to states with one label; the probabilities of the labels are positive and have the sum one.", "quantifier": "all weights, dimensions, hidden states", "why_tests_cant": "a statement about distributions, for all weights", "anchors": ["mdp/nodes/rbm_nodes.py:RBMWithLabelsNode"]}
{"id": "C198", "title": "Sampling of RBMNode leaves the Boltzmann distribution unchanged", "statement": "If the state has the Boltzmann distribution, it still has it after any number of rounds of sample_v and sample_h.", "quantifier": "all weights, dimensions, numbers of rounds", "why_tests_cant": "a statement about distributions, for all weights", "anchors": ["mdp/nodes/rbm_nodes.py:RBMNode"]}
{"id": "C199", "title": "RBMNode.train is gradient descent of the contrastive divergence", "statement": "Without momentum and decay each weight changes by minus epsilon times the derivative of the mean free energy of the data minus that of the samples, which are drawn in n_updates rounds from the data; in general momentum times the last change is added and decay times the weight subtracted. This holds for every n_updates and every chunk.", "quantifier": "all weights, data, parameters, random numbers", "why_tests_cant": "all data and random numbers", "anchors": ["mdp/nodes/rbm_nodes.py:RBMNode._train", "mdp/nodes/rbm_nodes.py:RBMWithLabelsNode.train"]}
{"id": "C200", "title": "RBMNode: bounded changes and weights", "statement": "For data between zero and one no bias changes by more than epsilon/(1-momentum) in a call of train; with decay d and no momentum the weights stay below max(1/d, initial weights).", "quantifier": "all sequences of calls of train, data, random numbers", "why_tests_cant": "all histories", "anchors": ["mdp/nodes/rbm_nodes.py:RBMNode._train"]}
{"id": "C201", "title": "Parallel execution of a BiFlow gives the result of sequential execution", "statement": "ParallelBiFlow.execute on a scheduler returns the data and the message that BiFlow.execute returns: the outputs of the chunks in their order and the joined messages, whatever the order in which the tasks finish; it raises if BiFlow.execute raises.", "quantifier": "every flow whose chunks do not influence one another, chunk list with messages and targets, order in which tasks finish and earlier use of the scheduler", "why_tests_cant": "all flows, messages and schedules", "anchors": ["bimdp/parallel/parallelbiflow.py:ParallelBiFlow.execute", "bimdp/parallel/parallelbiflow.py:ParallelBiFlow.use_results", "mdp/parallel/parallelflows.py:ExecuteResultContainer"]}
{"id": "C202", "title": "Parallel training of a BiFlow gives the result of sequential training", "statement": "If forks of the flow can be trained and joined properly and BiFlow.train succeeds then ParallelBiFlow.train on a scheduler succeeds and leaves nodes that compute the same, whatever the order in which tasks finish and whichever phases cannot be forked.", "quantifier": "every flow, data, messages, stop messages and order in which tasks finish", "why_tests_cant": "all flows and schedules", "anchors": ["bimdp/parallel/parallelbiflow.py:ParallelBiFlow.train", "bimdp/parallel/parallelbiflow.py:BiFlowTrainCallable", "bimdp/parallel/parallelbiflow.py:ParallelBiFlow.use_results"]}
{"id": "C203", "title": "ParallelBiFlow.train accepts a scheduler or one scheduler per node", "statement": "With one scheduler, and with an iterable of schedulers, ParallelBiFlow.train returns normally when all nodes are trained.", "quantifier": "every flow, data and schedulers", "why_tests_cant": "all flows and schedulers", "anchors": ["bimdp/parallel/parallelbiflow.py:ParallelBiFlow.train", "bimdp/parallel/parallelbiflow.py:ParallelBiFlow._next_train_phase"]}
{"id": "C204", "title": "ParallelCheckpointBiFlow.train passes the messages on", "statement": "ParallelCheckpointBiFlow.train gives each node its stop message, with a scheduler and without.", "quantifier": "every flow, data and messages", "why_tests_cant": "all flows", "anchors": ["bimdp/parallel/parallelbiflow.py:ParallelCheckpointBiFlow.train"]}
{"id": "C205", "title": "FastICANode takes the documented steps", "statement": "Every step of FastICANode uses g, in fine-tuning (and, with the symmetric approach, after coarse_limit is reached) fine_g; random samples if sample_size is not one and fine_g is not in use; its size is mu, halved at most twice, or a hundredth of that in fine-tuning; steps of a size other than one are stabilised.", "quantifier": "all data, parameters, random samples, numbers of iterations", "why_tests_cant": "all runs of the loop", "anchors": ["mdp/nodes/ica_nodes.py:FastICANode.core"]}
{"id": "C206", "title": "FastICANode's step is the Newton step", "statement": "The plain step for a filter w of length one is E[x g(w.x)] - E[g'(w.x)] w with the documented nonlinearities g, also where the code replaces the mean of g' by a constant, if the data is white.", "quantifier": "all white data, filters, parameters", "why_tests_cant": "real numbers, all data", "anchors": ["mdp/nodes/ica_nodes.py:FastICANode.core"]}
{"id": "C207", "title": "FastICANode counts failures", "statement": "With approach defl the run ends normally only if no component that fails to converge is more than the failures-th one since the last component found; the exception for too many failures comes with the first such component.", "quantifier": "all data, parameters, random samples", "why_tests_cant": "all runs", "anchors": ["mdp/nodes/ica_nodes.py:FastICANode.core"]}
{"id": "C208", "title": "Training an OnlineFlowNode trains the nodes of the flow in order", "statement": "For every sample (in batch training: once with the whole array) train passes the sample through the flow: each trainable node is trained with what the nodes before it, already updated by this sample, make of it. The call returns if and only if all these calls return; nodes keep what they learnt when one raises. The trainable nodes before the last are left as OnlineFlow.train leaves them. This holds for all nodes the class allows, trained ordinary nodes included.", "quantifier": "all flows of online nodes, trained nodes and nodes without training, all data, training types and histories of calls", "why_tests_cant": "all nodes, data and histories", "anchors": ["mdp/hinet/flownode_online.py:OnlineFlowNode", "mdp/hinet/flownode.py:FlowNode"]}
{"id": "C209", "title": "stop_training of an OnlineFlowNode stops every node", "statement": "stop_training stops all trainable nodes in the order of the flow, then sets unknown input dimensions to the output dimension of the node before, and the output dimension of the flow node to that of the last node; if a node raises, the flow node stays in training.", "quantifier": "all flows and histories of calls", "why_tests_cant": "all nodes and histories", "anchors": ["mdp/hinet/flownode_online.py:OnlineFlowNode._get_train_seq", "mdp/hinet/flownode.py:FlowNode._fix_nodes_dimensions"]}
{"id": "C210", "title": "An online flow node executes its flow", "statement": "After training, execute of an OnlineFlowNode runs all nodes, of a CircularOnlineFlowNode the nodes up to the output node, each on the output of the one before, and returns the result.", "quantifier": "all flows, inputs and histories of calls", "why_tests_cant": "all nodes and histories", "anchors": ["mdp/hinet/flownode_online.py:OnlineFlowNode", "mdp/hinet/flownode_online.py:CircularOnlineFlowNode", "mdp/hinet/flownode.py:FlowNode._set_output_dim"]}
{"id": "C211", "title": "The training type of an online flow node follows its nodes", "statement": "A new online flow node has training type batch if and only if a node of the flow has; otherwise it can be set once, and then never changed. Whatever is called, the trainable nodes of the flow are those it was built with.", "quantifier": "all flows and histories of calls", "why_tests_cant": "all histories", "anchors": ["mdp/hinet/flownode_online.py:OnlineFlowNode.set_training_type", "mdp/hinet/flownode_online.py:OnlineFlowNode._set_training_type_from_flow"]}
{"id": "C212", "title": "Training a CircularOnlineFlowNode runs the ring", "statement": "For every sample the ring of nodes is run flow_iterations times, every node being trained and executed, starting from the sample or the stored input; the last output is stored: the same as CircularOnlineFlow.train. stop_training stops every node.", "quantifier": "all circular flows, data, numbers of iterations and histories of calls", "why_tests_cant": "all nodes, data and histories", "anchors": ["mdp/hinet/flownode_online.py:CircularOnlineFlowNode"]}
{"id": "C213", "title": "The likelihood of FANode never decreases in training", "statement": "After stop_training, lhood has mean log-likelihoods of the training data, in non-decreasing order, the first one for the initial parameters; the parameters A, sigma, mu are at least as likely as all of them; the warning about a decreasing likelihood is not given.", "quantifier": "all data that are not refused, tolerances, numbers of cycles and random numbers", "why_tests_cant": "all data and random numbers", "anchors": ["mdp/nodes/em_nodes.py:FANode._stop_training"]}
{"id": "C214", "title": "FANode refuses singular data", "statement": "stop_training raises a NodeException ('The covariance matrix of the data is singular') exactly if the data are in a plane of smaller dimension; after the exception the node can be given further data.", "quantifier": "all data, in all chunks, and dimensions", "why_tests_cant": "all data", "anchors": ["mdp/nodes/em_nodes.py:FANode._stop_training", "mdp/nodes/em_nodes.py:FANode._train"]}
{"id": "C215", "title": "Training of FANode succeeds with all other data", "statement": "With data that are not refused no matrix is singular in any EM cycle, all noise variances stay positive, and stop_training does not raise; mu and tlen are the mean and the number of all rows given.", "quantifier": "all data that are not refused, tolerances, numbers of cycles and random numbers", "why_tests_cant": "all data and random numbers", "anchors": ["mdp/nodes/em_nodes.py:FANode._stop_training"]}
{"id": "C216", "title": "FANode.execute returns the maximum a posteriori estimate", "statement": "For the trained parameters, the output for an observation has a larger joint density with the observation than every other value of the latent variables.", "quantifier": "all trained nodes and observations", "why_tests_cant": "all data and observations", "anchors": ["mdp/nodes/em_nodes.py:FANode._execute", "mdp/nodes/em_nodes.py:FANode._stop_training"]}
{"id": "C217", "title": "FANode runs the EM algorithm", "statement": "The parameters are the result of EM steps, each of which is the unique maximiser of the expected complete log-likelihood, from scaled random loading factors and the variances of the data. There are max_cycles steps, or training ends with the first cycle, except cycle 0, whose gain in likelihood since the start is less than (1+tol) times that of the cycle before; lhood has the likelihoods of all cycles except the last one.", "quantifier": "all data that are not refused, tolerances, numbers of cycles and random numbers", "why_tests_cant": "all data and random numbers", "anchors": ["mdp/nodes/em_nodes.py:FANode._stop_training"]}
{"id": "C218", "title": "Data generated by FANode have the distribution of the model", "statement": "generate_input(y) returns mu + A y; with noise, if the latent variables and the noise have mean zero, variance one and are uncorrelated, the generated data have the mean of the training data and the covariance A A^T + diag(sigma).", "quantifier": "all trained nodes, latent variables and noise", "why_tests_cant": "all latent variables", "anchors": ["mdp/nodes/em_nodes.py:FANode.generate_input"]}
{"id": "C219", "title": "FDA outputs are decorrelated and ordered by the scatter within the classes", "statement": "After both training phases with the same labelled data, each cut in any way, the outputs of an FDANode for the data have mean zero, variance one and are pairwise uncorrelated; the sum of squared deviations from the means of the classes does not decrease from one output to the next; there are output_dim outputs, or as many as inputs; execute(x, n) gives the first n.", "quantifier": "all labelled data, cuttings and dimensions", "why_tests_cant": "all data and cuttings", "anchors": ["mdp/nodes/fda_nodes.py:FDANode._stop_fda", "mdp/nodes/fda_nodes.py:FDANode._execute"]}
{"id": "C220", "title": "FDA outputs separate the classes best", "statement": "No linear function that is uncorrelated with the first i outputs of an FDANode has less scatter within the classes for its variance than output i; no m uncorrelated linear functions of variance one have less in sum than the first m outputs.", "quantifier": "all labelled data and all rival functions", "why_tests_cant": "all rival functions", "anchors": ["mdp/nodes/fda_nodes.py:FDANode._stop_fda"]}
{"id": "C221", "title": "FDA training can be completed after a failure of the solver", "statement": "If stop_training of an FDANode raises because the solver failed (for instance because the total covariance is singular), the node can be given further data and stopped again.", "quantifier": "all training histories and failures", "why_tests_cant": "all histories", "anchors": ["mdp/nodes/fda_nodes.py:FDANode._stop_fda", "mdp/nodes/fda_nodes.py:FDANode._train_fda"]}
{"id": "C222", "title": "FDA inverse", "statement": "execute undoes inverse for every output vector of an FDANode, and inverse undoes execute if all components are kept.", "quantifier": "all labelled data and vectors", "why_tests_cant": "all inputs", "anchors": ["mdp/nodes/fda_nodes.py:FDANode._inverse", "mdp/nodes/fda_nodes.py:FDANode._execute"]}
{"id": "C223", "title": "Crash recovery dumps the flow as the failed call left it", "statement": "With crash recovery, a call of train, execute or inverse that fails because a node raises an exception raises a FlowExceptionCR, which carries the number and the exception of the node, and dumps the flow once, in the state in which the call leaves it; a call that succeeds dumps nothing; without crash recovery nothing is dumped; crash recovery has no influence on results and nodes.", "quantifier": "all flows, data and failures", "why_tests_cant": "all failures at all points of all calls", "anchors": ["mdp/linear_flows.py:Flow._propagate_exception", "mdp/linear_flows.py:FlowExceptionCR", "mdp/linear_flows.py:Flow._train_node", "mdp/linear_flows.py:Flow._execute_seq", "mdp/linear_flows.py:Flow._inverse_seq", "mdp/linear_flows.py:Flow._close_last_node"]}
{"id": "C224", "title": "Training again after a crash", "statement": "If Flow.train fails at any point and is then called again and succeeds, then nodes that were finished get no new data, and the other nodes are trained, in each phase not closed before, on one complete pass over the new data; no chunk counts twice.", "quantifier": "all flows, data and points of failure", "why_tests_cant": "all points of failure", "anchors": ["mdp/linear_flows.py:Flow.train", "mdp/linear_flows.py:Flow._train_node", "mdp/linear_flows.py:Flow._close_last_node"]}
{"id": "C225", "title": "CheckpointSaveFunction saves the trained node", "statement": "The file written by a CheckpointSaveFunction for a node of a CheckpointFlow holds the node with the training history of its own data, one pass for each phase, passed through the nodes before it; with stop_training=1 its last phase is closed; nodes that need no training are saved as they are.", "quantifier": "all flows, data and choices of checkpoints", "why_tests_cant": "all flows and data", "anchors": ["mdp/linear_flows.py:CheckpointSaveFunction.__call__", "mdp/linear_flows.py:CheckpointFlow.train"]}
{"id": "C226", "title": "Eta values measure the changes of the training data", "statement": "get_eta(t) of an EtaComputerNode is, for each component, t/(2 pi) times the square root of the mean squared change from one sample to the next within the chunks divided by the variance of all but the last sample of each chunk; it is no number if there are fewer than two such samples or they are all the same; it depends neither on the order of the chunks nor on scaling and shift of the component.", "quantifier": "all training data", "why_tests_cant": "all inputs", "anchors": ["mdp/nodes/misc_nodes.py:EtaComputerNode._train", "mdp/nodes/misc_nodes.py:EtaComputerNode._stop_training", "mdp/nodes/misc_nodes.py:EtaComputerNode.get_eta"]}
{"id": "C227", "title": "Eta values do not depend on how a sequence is cut into chunks", "statement": "An EtaComputerNode that is given a sequence in several chunks has the same eta values as one that is given it in one chunk.", "quantifier": "all sequences and ways to cut them", "why_tests_cant": "all inputs and chunkings", "anchors": ["mdp/nodes/misc_nodes.py:EtaComputerNode._train", "mdp/nodes/misc_nodes.py:EtaComputerNode._stop_training"]}
{"id": "C228", "title": "The eta value of a sine is its number of oscillations", "statement": "If a component of the training data of length T is a sine with exactly N oscillations, then get_eta(T) is N.", "quantifier": "all amplitudes, phases, offsets, lengths and numbers of oscillations", "why_tests_cant": "all inputs", "anchors": ["mdp/nodes/misc_nodes.py:EtaComputerNode", "mdp/nodes/misc_nodes.py:EtaComputerNode.get_eta"]}
{"id": "C229", "title": "EtaComputerNode and SFANode agree on eta values", "statement": "An EtaComputerNode trained with the outputs of an SFANode for its own training data, where the SFANode ignores the last sample of each chunk, has the eta values that get_eta_values of the SFANode returns.", "quantifier": "all training data for which the eigenvalue problem can be solved", "why_tests_cant": "all inputs", "anchors": ["mdp/nodes/misc_nodes.py:EtaComputerNode.get_eta", "mdp/nodes/sfa_nodes.py:SFANode.get_eta_values", "mdp/nodes/sfa_nodes.py:SFANode._stop_training"]}
{"id": "C230", "title": "Copies of flows and nodes are independent", "statement": "Flow.copy and Node.copy return an object that looks the same along every path of references and shares objects within itself exactly where the original does; the copy and the original have no object in common, so that nothing done to the one can be seen in the other; the original is left as it is; copying fails only if a node in it cannot be copied, and then changes nothing.", "quantifier": "all flows and nodes, with any nesting and sharing, and everything done to them afterwards", "why_tests_cant": "all object graphs and all later histories", "anchors": ["mdp/linear_flows.py:Flow.copy", "mdp/signal_node.py:Node.copy"]}
{"id": "C231", "title": "FlowNode.copy", "statement": "FlowNode.copy returns a node that looks the same as the original and is independent of it; it leaves the original as it is, also if it fails, and it can be called any number of times.", "quantifier": "all flow nodes, with any nesting, and sequences of copies", "why_tests_cant": "all object graphs and numbers of copies", "anchors": ["mdp/hinet/flownode.py:FlowNode.copy", "mdp/linear_flows.py:Flow.__getitem__", "mdp/linear_flows.py:Flow.__add__"]}
{"id": "C232", "title": "Concatenation keeps the nodes", "statement": "node + node, flow + node, flow + flow and node + flow return a new flow with exactly the given nodes (not copies) in order and change nothing else; only a BiNode plus a flow uses copies, as documented.", "quantifier": "all nodes and flows", "why_tests_cant": "all object graphs", "anchors": ["mdp/signal_node.py:Node.__add__", "mdp/linear_flows.py:Flow.__add__", "mdp/signal_node_online.py:OnlineNode.__add__", "bimdp/binode.py:BiNode.__add__"]}
{"id": "C233", "title": "Changing a flow changes no other flow", "statement": "append, insert, extend, pop, item and slice assignment, deletion and += change the sequence of nodes of the flow they are called on and of no other flow, even if both have been made from the same list of nodes.", "quantifier": "all flows, lists and operations", "why_tests_cant": "all aliasing patterns", "anchors": ["mdp/linear_flows.py:Flow.__iadd__", "mdp/linear_flows.py:Flow.__setitem__", "mdp/linear_flows.py:Flow.__delitem__", "mdp/linear_flows.py:Flow.__init__"]}
{"id": "C234", "title": "random_rot returns a rotation", "statement": "For every number of dimensions except zero and all normal random numbers that can occur with positive probability (in each pass the first number is not zero and neither are all the others), random_rot returns an orthogonal matrix with determinant 1.", "quantifier": "all dimensions and random numbers", "why_tests_cant": "all random numbers", "anchors": ["mdp/utils/routines.py:random_rot"]}
{"id": "C235", "title": "symrand returns a Hermitian matrix with the given eigenvalues", "statement": "symrand(d) returns a matrix that is symmetric (Hermitian with a complex dtype) and has the eigenvalues d; mult_diag is the product with a diagonal matrix.", "quantifier": "all eigenvalues, dimensions, dtypes and random numbers", "why_tests_cant": "all random numbers and inputs", "anchors": ["mdp/utils/routines.py:symrand", "mdp/utils/routines.py:mult_diag"]}
{"id": "C236", "title": "rotate and permute change arrays in place as documented", "statement": "rotate turns every row of the array by the angle in the plane of two different columns and leaves the other columns alone; angles add up, 360 degrees give the array back. permute swaps two rows, two columns, or both and nothing else; doing it twice gives the array back.", "quantifier": "all arrays, angles and indices", "why_tests_cant": "all inputs", "anchors": ["mdp/utils/routines.py:rotate", "mdp/utils/routines.py:permute"]}
{"id": "C237", "title": "cov2 computes the covariance", "statement": "cov2(x, y) is the sample covariance of the columns of x and y.", "quantifier": "all arrays with at least two rows", "why_tests_cant": "all inputs", "anchors": ["mdp/utils/routines.py:cov2"]}
{"id": "C238", "title": "cov_maxima matches rows and columns greedily", "statement": "cov_maxima returns as many numbers as the matrix has rows, one from each row and column; each is the largest absolute value among the rows and columns left, so they do not increase and the first is the largest of all; for a permutation matrix with any signs they are all one.", "quantifier": "all square matrices", "why_tests_cant": "all inputs", "anchors": ["mdp/utils/routines.py:cov_maxima"]}
{"id": "C239", "title": "sqrtm computes the square root", "statement": "For a positive semidefinite matrix sqrtm returns a positive semidefinite matrix whose square it is; for other symmetric matrices it returns nothing that can be used.", "quantifier": "all symmetric matrices", "why_tests_cant": "all inputs", "anchors": ["mdp/utils/routines.py:sqrtm"]}
{"id": "C240", "title": "gabor returns a wavelet around its centre", "statement": "gabor with the centre (x, y) has in each pixel the amplitude times a Gaussian of the distance along the two axes times a cosine along the second axis; the value at the centre is the amplitude times the cosine of the phase and no value exceeds the amplitude; by default the centre is the middle of the array.", "quantifier": "all parameters and pixels", "why_tests_cant": "all inputs", "anchors": ["mdp/utils/routines.py:gabor"]}
{"id": "C241", "title": "izip_stretched repeats single values", "statement": "Tuple number n has the elements number n of all sequences and the single values; there are as many tuples as the shortest sequence has elements, infinitely many if there are only single values and none if there are no arguments.", "quantifier": "all arguments", "why_tests_cant": "all inputs", "anchors": ["mdp/utils/routines.py:izip_stretched", "mdp/utils/routines.py:_iter_or_repeat"]}
{"id": "C242", "title": "orthogonal_permutations gives every combination once", "statement": "The dictionaries are exactly those with one of the listed values for each key; their number is the product of the numbers of values, and none comes twice. sign_to_bool undoes bool_to_sign.", "quantifier": "all dictionaries of lists", "why_tests_cant": "all inputs", "anchors": ["mdp/utils/routines.py:orthogonal_permutations", "mdp/utils/routines.py:bool_to_sign", "mdp/utils/routines.py:sign_to_bool"]}
{"id": "C243", "title": "NIPALS loadings are orthonormal and variances those of the outputs", "statement": "After training a NIPALSNode the loadings found are orthonormal, whatever the convergence threshold; on the training data the outputs have mean zero and the sample variance d; components that are nan only come after all the others.", "quantifier": "all data, thresholds, limits and numbers of components", "why_tests_cant": "all inputs", "anchors": ["mdp/nodes/nipals.py:NIPALSNode"]}
{"id": "C244", "title": "NIPALS outputs are uncorrelated and loadings eigenvectors up to the threshold", "statement": "On the training data the square of the product sum of two different outputs is at most conv times the total sum of squares, and the loadings are eigenvectors of the sample covariance matrix with eigenvalues d up to an error whose square is at most (i+1) conv/(n-1) times the total variance; with conv 0 both hold exactly.", "quantifier": "all data, thresholds and numbers of components", "why_tests_cant": "all inputs", "anchors": ["mdp/nodes/nipals.py:NIPALSNode"]}
{"id": "C245", "title": "NIPALS variances add up to the total variance", "statement": "The sum of d is at most the total sample variance of the inputs, and equal to it if there are as many components as inputs.", "quantifier": "all data, thresholds and numbers of components", "why_tests_cant": "all inputs", "anchors": ["mdp/nodes/nipals.py:NIPALSNode"]}
{"id": "C246", "title": "NIPALS explained_variance is the fraction of the variance kept", "statement": "explained_variance is the sum of d over the total variance, and with a fraction given as output_dim the node keeps the smallest number of components that reaches it.", "quantifier": "all data and fractions", "why_tests_cant": "all inputs", "anchors": ["mdp/nodes/nipals.py:NIPALSNode._stop_training"]}
{"id": "C247", "title": "NIPALS finds the components in the order of their variance for all data", "statement": "For all data with variance every component is a number, and the components come in the order of decreasing variance.", "quantifier": "all data", "why_tests_cant": "all inputs", "anchors": ["mdp/nodes/nipals.py:NIPALSNode._stop_training"]}
{"id": "C248", "title": "XSFA trains its extractors in order, each for exactly its phases", "statement": "After any number of training phases of an XSFANode the internal flow has an extractor for each source up to the first one that is not trained yet; those before are trained for exactly their number of phases; at the end all are, and a further stop_training raises. There are (output_dim - 1)(5 + phases of the expansion) + 1 phases.", "quantifier": "all output dimensions, expansions and numbers of phases", "why_tests_cant": "all schedules", "anchors": ["mdp/nodes/xsfa_nodes.py:XSFANode"]}
{"id": "C249", "title": "NormalizeNode gives mean zero and variance one, and its inverse undoes it", "statement": "On the training data, in whatever chunks they came, the outputs of a NormalizeNode have mean zero and unit variance if no input is constant, and covariances are those of the inputs over the product of the standard deviations; inverse undoes execute.", "quantifier": "all data and chunks", "why_tests_cant": "all inputs", "anchors": ["mdp/nodes/xsfa_nodes.py:NormalizeNode"]}
{"id": "C250", "title": "XSFA removes from the signals everything linear in the expanded sources", "statement": "The projection in an XSFA extractor keeps the sources and makes the remaining signals uncorrelated with all expanded sources on the training data, leaving the least sum of squares, when the expanded sources are white.", "quantifier": "all data, chunks and sizes", "why_tests_cant": "all inputs", "anchors": ["mdp/nodes/xsfa_nodes.py:ProjectionNode"]}
{"id": "C251", "title": "XSFA sources are final", "statement": "Output k of an XSFANode is the first output of the SFA node of extractor k for what the extractors before leave; extractors after it do not change it.", "quantifier": "all extractors, inputs and numbers of sources", "why_tests_cant": "all inputs", "anchors": ["mdp/nodes/xsfa_nodes.py:XSFANode._execute"]}
{"id": "C252", "title": "Radial basis functions have the documented values", "statement": "RBFExpansionNode gives for every centre exp(-|x-c|^2/(2s)), or exp(-(x-c)^T S^-1 (x-c)/2) for a covariance matrix; the values are in (0,1] and 1 exactly at the centre; a single size stands for all centres; s and s times identity agree; other numbers of sizes, other dimensions and singular matrices are refused.", "quantifier": "all centres, sizes and inputs", "why_tests_cant": "all inputs", "anchors": ["mdp/nodes/expansion_nodes.py:RBFExpansionNode"]}
{"id": "C253", "title": "The neural gas expansion has a proper width for every node", "statement": "After training a GrowingNeuralGasExpansionNode there is one output for every node of the graph, at most max_nodes; its width is the mean squared distance to its neighbours, of which there is at least one, and the outputs are in (0,1].", "quantifier": "all data, chunks, parameters and start positions", "why_tests_cant": "all histories", "anchors": ["mdp/nodes/expansion_nodes.py:GrowingNeuralGasExpansionNode"]}
{"id": "C254", "title": "A general expansion is the concatenation of its functions", "statement": "The output of a GeneralExpansionNode is the concatenation of the results of its functions, output_dim the sum of their numbers of columns; functions that do not keep to the number of columns found for zeros are refused.", "quantifier": "all lists of functions and inputs", "why_tests_cant": "all inputs", "anchors": ["mdp/nodes/expansion_nodes.py:GeneralExpansionNode"]}
{"id": "C255", "title": "Convolution2DNode gives the convolution of every image with every filter", "statement": "Whatever was executed before, the output for image t and filter f is the full convolution or its part for the mode same or valid; flattened and three-dimensional data give the same; in the mode valid the boundary does not matter; the flattened output has the same numbers.", "quantifier": "all images, filters, modes, boundaries and histories", "why_tests_cant": "all inputs and histories", "anchors": ["mdp/nodes/convolution_nodes.py:Convolution2DNode"]}
{"id": "C256", "title": "Convolution2DNode refuses data that do not fit", "statement": "Flattened images without a shape, arrays of another rank, no images, other numbers of pixels, images of another shape with the same number of pixels, and too large filters in the mode valid are refused.", "quantifier": "all images, filters and modes", "why_tests_cant": "all inputs", "anchors": ["mdp/nodes/convolution_nodes.py:Convolution2DNode._pre_execution_checks"]}
{"id": "C257", "title": "New filters of a Convolution2DNode are used, or refused", "statement": "After the attribute filters has been set, executions give the convolutions with the new filters, or raise.", "quantifier": "all filters and histories", "why_tests_cant": "all histories", "anchors": ["mdp/nodes/convolution_nodes.py:Convolution2DNode.set_filters"]}
{"id": "C258", "title": "The weights of LLENode are the best reconstruction of every point from its neighbours", "statement": "After training an LLENode the weights of a point are zero outside its k nearest other points, sum up to one, and minimise the squared error of the reconstruction plus the regularisation (r times the trace of the local products, or the unused variance if r is None).", "quantifier": "all data, k, r and orders of equal distances", "why_tests_cant": "all inputs", "anchors": ["mdp/nodes/lle_nodes.py:LLENode._stop_training"]}
{"id": "C259", "title": "LLENode can be trained with at most as many neighbours as there are points", "statement": "More neighbours than points raise TrainingException; otherwise training succeeds unless more points coincide than there are neighbours.", "quantifier": "all data and k", "why_tests_cant": "all inputs", "anchors": ["mdp/nodes/lle_nodes.py:LLENode._stop_training"]}
{"id": "C260", "title": "LLENode maps new points by the weights of their nearest training points", "statement": "The output for a point is the combination of the training outputs of the k nearest training points with the weights that reconstruct the point best; it does not depend on the other rows.", "quantifier": "all trained nodes and inputs", "why_tests_cant": "all inputs", "anchors": ["mdp/nodes/lle_nodes.py:LLENode._execute"]}
{"id": "C261", "title": "LLENode gives training points their training projection, with the documented regularisation", "statement": "Executing a training point gives the training projection of the point; r is a multiple of the trace of the local products as documented.", "quantifier": "all trained nodes", "why_tests_cant": "all inputs", "anchors": ["mdp/nodes/lle_nodes.py:LLENode._execute"]}
{"id": "C262", "title": "The embedding of LLENode has the least reconstruction error", "statement": "training_projection has output_dim orthonormal centred columns, and no other orthonormal centred columns have a smaller error of the reconstruction by the weights.", "quantifier": "all data and parameters", "why_tests_cant": "all inputs and all competing embeddings", "anchors": ["mdp/nodes/lle_nodes.py:LLENode._stop_training"]}
{"id": "C263", "title": "LLENode only depends on the distances", "statement": "If all distances are multiplied by one positive factor (rotation, translation, scaling, another number of dimensions) the weights and the training projection stay the same.", "quantifier": "all data without equal distances, r and output_dim given", "why_tests_cant": "all inputs", "anchors": ["mdp/nodes/lle_nodes.py:LLENode._stop_training"]}
{"id": "C264", "title": "A fractional output_dim of LLENode explains that part of the local variance", "statement": "With a float output_dim at most one, output_dim dimensions explain that part of the local variance for at least half of the points, and less dimensions do not for at least half of the points.", "quantifier": "all data and fractions", "why_tests_cant": "all inputs", "anchors": ["mdp/nodes/lle_nodes.py:LLENode._adjust_output_dim"]}
{"id": "C265", "title": "HLLENode works with few neighbours", "statement": "With fewer neighbours than 1 + output_dim + output_dim (output_dim + 1)/2 HLLENode only warns and uses a less efficient computation, as documented.", "quantifier": "all data, output_dim > 0 and smaller k", "why_tests_cant": "all inputs", "anchors": ["mdp/nodes/lle_nodes.py:_mgs", "mdp/nodes/lle_nodes.py:HLLENode._stop_training"]}
{"id": "C266", "title": "The embedding of HLLENode has the least Hessian error", "statement": "With enough neighbours training_projection has output_dim orthogonal columns of the same length; no other centred orthogonal columns of this length have a smaller sum of squares of the local Hessian estimators, which are orthonormal, use only the neighbours, and vanish for constants and for the local principal coordinates.", "quantifier": "all data and parameters", "why_tests_cant": "all inputs and all competing embeddings", "anchors": ["mdp/nodes/lle_nodes.py:HLLENode._stop_training"]}
{"id": "C267", "title": "HLLENode can be trained exactly for fitting numbers of neighbours", "statement": "Training succeeds if output_dim < k <= number of points and raises TrainingException otherwise.", "quantifier": "all data, k and output_dim", "why_tests_cant": "all inputs", "anchors": ["mdp/nodes/lle_nodes.py:HLLENode._stop_training"]}
{"id": "C268", "title": "HLLENode recovers flat data", "statement": "For data in a flat of dimension output_dim affine functions of the data have no Hessian error; if the data span the flat the columns of training_projection have no error either; if only affine functions have no error they are affine functions of the data.", "quantifier": "all flat data", "why_tests_cant": "all inputs", "anchors": ["mdp/nodes/lle_nodes.py:HLLENode._stop_training"]}
{"id": "C269", "title": "ISFANode knows the objective of the angles it tries", "statement": "For every pair of axes, inside the output space or reaching into the outer space, the contrast that comes with an angle is the weighted objective of the covariance matrices rotated by this angle.", "quantifier": "all symmetric covariance matrices, weights, numbers of outputs and pairs of axes", "why_tests_cant": "all real matrices", "anchors": ["mdp/nodes/isfa_nodes.py:_givens_angle_case1", "mdp/nodes/isfa_nodes.py:_givens_angle_case2", "mdp/nodes/isfa_nodes.py:_get_contrast"]}
{"id": "C270", "title": "The angle of ISFANode inside the output space is the best", "statement": "For two axes of the output space no rotation in their plane has a smaller objective than the one chosen, and the angle is at most 45 degrees.", "quantifier": "all symmetric covariance matrices, weights and pairs of axes", "why_tests_cant": "all real matrices and all angles", "anchors": ["mdp/nodes/isfa_nodes.py:_givens_angle_case1"]}
{"id": "C271", "title": "The filters of ISFANode are a rotation", "statement": "After training RPC is orthogonal if the starting rotation is, covs are the original covariance matrices in its coordinates, and initial_contrast and final_contrast are the objectives before and after.", "quantifier": "all covariance matrices, orders of the axes, random rotations and permutations, numbers of sweeps", "why_tests_cant": "all schedules", "anchors": ["mdp/nodes/isfa_nodes.py:ISFANode._optimize", "mdp/nodes/isfa_nodes.py:ISFANode._do_sweep", "mdp/nodes/isfa_nodes.py:ISFANode._stop_training"]}
{"id": "C272", "title": "ISFANode does not make the objective worse", "statement": "The final contrast is at most the initial contrast.", "quantifier": "all covariance matrices and random choices", "why_tests_cant": "all schedules", "anchors": ["mdp/nodes/isfa_nodes.py:ISFANode._optimize", "mdp/nodes/isfa_nodes.py:ISFANode._do_sweep"]}
{"id": "C273", "title": "The outputs of ISFANode are white and ordered by slowness", "statement": "There are output_dim orthonormal filters, the outputs of white data have mean zero, variance one and no correlation, and the correlation at the first time-lag does not grow from an output to the next.", "quantifier": "all covariance matrices, white data and random choices", "why_tests_cant": "all inputs and schedules", "anchors": ["mdp/nodes/isfa_nodes.py:ISFANode._stop_training", "mdp/nodes/isfa_nodes.py:ISFANode._execute"]}
{"id": "C274", "title": "ISFANode can be inverted", "statement": "Every output is the output of its inverse, and with as many outputs as inputs the inverse of the output is the input.", "quantifier": "all trained nodes and all rows", "why_tests_cant": "all inputs", "anchors": ["mdp/nodes/isfa_nodes.py:ISFANode._execute", "mdp/nodes/isfa_nodes.py:ISFANode._inverse"]}
{"id": "C275", "title": "ISFANode finds the best rotation of two signals", "statement": "For two signals and two outputs training succeeds and no orthogonal matrix has a smaller objective than the result.", "quantifier": "all pairs of lagged covariance matrices, weights and thresholds", "why_tests_cant": "all inputs and all competing rotations", "anchors": ["mdp/nodes/isfa_nodes.py:ISFANode._optimize", "mdp/nodes/isfa_nodes.py:ISFANode._do_sweep"]}
{"id": "C276", "title": "TDSEPNode separates two signals", "statement": "The objective of TDSEPNode is the mean square of the lagged covariances of different outputs; for two signals the result has the least possible; if they can be separated exactly they are.", "quantifier": "all covariance matrices of two signals", "why_tests_cant": "all inputs", "anchors": ["mdp/nodes/ica_nodes.py:TDSEPNode", "mdp/nodes/isfa_nodes.py:ISFANode._do_sweep"]}
{"id": "C277", "title": "ISFANode converges within max_iter sweeps or raises", "statement": "Training ends after at most max_iter sweeps; it raises exactly if there is no convergence within max_iter sweeps.", "quantifier": "all data, limits and random choices", "why_tests_cant": "all schedules", "anchors": ["mdp/nodes/isfa_nodes.py:ISFANode._optimize"]}
{"id": "C278", "title": "ISFANode can be trained with one signal", "statement": "Training with one-dimensional data succeeds: the only component is the output.", "quantifier": "all one-dimensional data", "why_tests_cant": "all inputs", "anchors": ["mdp/nodes/isfa_nodes.py:ISFANode._do_sweep"]}
{"id": "C279", "title": "The arguments lags and weights of ISFANode", "statement": "An integer k stands for the time-lags 1 to k. Weights are one number or one per time-lag, by default 1 for ICA and 1 for the first time-lag, 0 for the others for SFA; a list of a wrong length is refused with NodeException.", "quantifier": "all arguments", "why_tests_cant": "all arguments", "anchors": ["mdp/nodes/isfa_nodes.py:ISFANode.__init__"]}
{"id": "C280", "title": "ISFANode keeps white_comp components and can use given covariance matrices", "statement": "white_comp components are kept by whitening and output_dim of them extracted; covariance matrices can be handed to stop_training as in the documentation.", "quantifier": "all arguments", "why_tests_cant": "all arguments", "anchors": ["mdp/nodes/isfa_nodes.py:ISFANode.__init__", "mdp/nodes/isfa_nodes.py:ISFANode._fix_covs", "mdp/nodes/isfa_nodes.py:ISFANode._set_input_dim"]}
{"id": "C281", "title": "The invariances of a quadratic form are its second derivatives on the sphere", "statement": "get_invariances returns n-1 orthonormal directions tangent to the sphere at the extremum; the number that comes with a direction is the second derivative of the form along the great circle in this direction; they are ordered by absolute value.", "quantifier": "all quadratic forms, points of the sphere and answers of the matrix library that meet its documentation", "why_tests_cant": "all real forms", "anchors": ["mdp/utils/quad_forms.py:QuadraticForm.get_invariances"]}
{"id": "C282", "title": "Invariances at an extremum have the sign of the extremum", "statement": "At a maximum on the sphere no invariance is positive, at a minimum none is negative, and the first direction returned is the one along which the form changes least.", "quantifier": "all quadratic forms and their extrema", "why_tests_cant": "all real forms", "anchors": ["mdp/utils/quad_forms.py:QuadraticForm.get_invariances"]}
{"id": "C283", "title": "The solver reg solves the generalised eigenvalue problem approximately on the range of B", "statement": "If all variances that are not zero are at least mu, larger than the threshold t, and B and A vanish on the same vectors, the vectors returned by the method reg are orthonormal with respect to B up to t/(mu+t), diagonalise A exactly, come in the order of the eigenvalues, span all directions of variance not zero, and rank_deficit is the number of directions left out.", "quantifier": "all pairs of matrices with the same null space", "why_tests_cant": "all matrices and ranges", "anchors": ["mdp/utils/symeig_semidefinite.py:symeig_semidefinite_reg"]}
{"id": "C284", "title": "The solver reg reports the rank deficit and handles constant data", "statement": "rank_deficit is set to the number of directions left out, and constant data are reported as such.", "quantifier": "all pairs of matrices", "why_tests_cant": "all matrices", "anchors": ["mdp/utils/symeig_semidefinite.py:symeig_semidefinite_reg"]}
{"id": "C285", "title": "Switchboards of the factory fit the previous layer", "statement": "A switchboard made for a layer whose nodes have m outputs each has the outputs of the layer as inputs, one channel of size m per node; it fits exactly if the number of outputs is a multiple of the number of nodes.", "quantifier": "all classes, geometries, previous switchboards and parameters", "why_tests_cant": "all geometries", "anchors": ["mdp/hinet/switchboard_factory.py:create_switchboard", "mdp/hinet/switchboard_factory.py:_get_switchboard_kwargs"]}
{"id": "C286", "title": "Hierarchies of rectangular fields have rectangular receptive fields", "statement": "A channel of the new switchboard is connected with exactly the nodes in its field; over two layers it sees exactly the input channels in one rectangle.", "quantifier": "all geometries without gaps", "why_tests_cant": "all geometries", "anchors": ["mdp/hinet/switchboard_factory.py:FactoryRectangular2dSwitchboard"]}
{"id": "C287", "title": "The switchboard of an image has the pixels as channels", "statement": "get_2d_image_switchboard succeeds for every image with at least one pixel, and channel y*width+x is pixel (x, y).", "quantifier": "all image sizes", "why_tests_cant": "all sizes", "anchors": ["mdp/hinet/switchboard_factory.py:get_2d_image_switchboard"]}
{"id": "C288", "title": "The factory makes every kind of switchboard and leaves its arguments alone", "statement": "A previous switchboard of a class that does not fit is refused with SwitchboardException; for the others each class can be made, free_params is not changed, and outputs that cannot be shared out among the channels are refused.", "quantifier": "all classes, parameters and previous switchboards", "why_tests_cant": "all arguments", "anchors": ["mdp/hinet/switchboard_factory.py:create_switchboard", "mdp/hinet/switchboard_factory.py:FactoryDoubleRhomb2dSwitchboard"]}
{"id": "C289", "title": "Classifiers keep every sample with its label", "statement": "What the labelled training of a classifier collects is the samples of all calls in order, each with its label; labels that do not fit the data are refused; a refused call changes nothing; labels can be an array, a list or one label for all.", "quantifier": "all sequences of training calls", "why_tests_cant": "all histories", "anchors": ["mdp/classifier_node.py:ClassifierCumulator"]}
{"id": "C290", "title": "Execution of a classifier follows execute_method", "statement": "execute returns the labels, probabilities or ranks if execute_method says so, otherwise the data; an unknown method is refused; a BiClassifier returns under its message keys what the methods return.", "quantifier": "all classifiers, data and settings", "why_tests_cant": "all settings", "anchors": ["mdp/classifier_node.py:ClassifierNode._execute", "bimdp/biclassifier.py:BiClassifier._execute"]}
{"id": "C291", "title": "Labels of wrapped classifiers are translated back and forth", "statement": "Labels that are made into numbers for a library and back are the labels again; for libraries that know two classes only, more than two labels are refused.", "quantifier": "all sets of labels", "why_tests_cant": "all labels", "anchors": ["mdp/nodes/svm_classifiers.py:_LabelNormalizer"]}
{"id": "C292", "title": "A loop over progressinfo sees the elements of the sequence", "statement": "Iterating over progressinfo(s) gives the elements of s, all of them and in order, for every style, every length (zero too), and every announced length.", "quantifier": "all sequences, styles, announced lengths and earlier loops", "why_tests_cant": "all sequences and histories", "anchors": ["mdp/utils/progress_bar.py:progressinfo", "mdp/utils/progress_bar.py:_progress"]}
{"id": "C293", "title": "The progress bar fits into the terminal", "statement": "Every bar drawn is exactly one column narrower than the terminal and never goes back; its parts are the percentage and as many characters as the fraction of the width.", "quantifier": "all widths, indentations, positions and fractions", "why_tests_cant": "all widths and fractions", "anchors": ["mdp/utils/progress_bar.py:_progress", "mdp/utils/progress_bar.py:progressinfo"]}
{"id": "C294", "title": "dig_node finds the arrays of a node", "statement": "dig_node ends for every node, also with cyclic references; it reports each array that can be reached through attributes exactly once, under a name that leads to it, with its size in bytes; a node without arrays gives an empty report.", "quantifier": "all graphs of objects", "why_tests_cant": "all object graphs, cycles included", "anchors": ["mdp/utils/introspection.py:_Walk", "mdp/utils/introspection.py:dig_node", "mdp/utils/introspection.py:_format_dig"]}
{"id": "C295", "title": "Sizes of nodes are displayed in the right unit", "statement": "The text for a size has the unit in which the number is more than one and at most the base, and is right to a twentieth of the unit, for every size.", "quantifier": "all sizes, both systems of units", "why_tests_cant": "all sizes", "anchors": ["mdp/utils/introspection.py:_memory_size_str"]}
{"id": "C296", "title": "A temporary directory is removed, and nothing else", "statement": "After the block the temporary directory and all it contains are gone, files elsewhere are untouched, and a second cleanup has no effect.", "quantifier": "all directory trees, with links and files that cannot be removed", "why_tests_cant": "all directory trees", "anchors": ["mdp/utils/temporarydir.py:TemporaryDirectory"]}
{"id": "C297", "title": "Noise nodes add the noise they are asked for", "statement": "Each output of a NoiseNode is the input plus the noise, or times one plus the noise; the output has the type of the node; other noise types are refused.", "quantifier": "all data, noise functions and data types", "why_tests_cant": "all data and noise", "anchors": ["mdp/nodes/misc_nodes.py:NoiseNode", "mdp/nodes/misc_nodes.py:NormalNoiseNode"]}
{"id": "C298", "title": "SenderBiNode delivers its data to the recipient", "statement": "The data a SenderBiNode gets are in its message; nodes on the way hand them on; the node with the id of the recipient gets them as msg_x; any recipient name works.", "quantifier": "all messages, nodes and recipients", "why_tests_cant": "all messages and flows", "anchors": ["bimdp/nodes/miscnodes.py:SenderBiNode"]}
{"id": "C299", "title": "mdp.config lists the dependencies in the order of registration", "statement": "info() has one line per dependency, in the order of the last registrations, aligned at the colon, with the version or the reason of the failure; a dependency counts as available exactly if its last registration found it.", "quantifier": "all histories of registrations", "why_tests_cant": "all histories", "anchors": ["mdp/configuration.py:config"]}
{"id": "C300", "title": "The parallel python scheduler returns every result once", "statement": "However threads add tasks and workers finish them, each call of get_results of a PPScheduler returns the outcomes of exactly the tasks added since the previous call, each once, None for a task that raised, in the order of the tasks if the container is ordered.", "quantifier": "all interleavings of adding threads, workers, callbacks and calls of get_results", "why_tests_cant": "all interleavings", "anchors": ["mdp/parallel/pp_support.py:PPScheduler", "mdp/parallel/scheduling.py:Scheduler"]}
{"id": "C301", "title": "The queue of the parallel python scheduler is bounded and does not stall", "statement": "The queue of the server never holds more than max_queue_length plus one task per adding thread; while tasks are open and nothing has raised, some thread, worker or callback can always go on.", "quantifier": "all interleavings", "why_tests_cant": "all interleavings", "anchors": ["mdp/parallel/pp_support.py:PPScheduler"]}
{"id": "C302", "title": "A failed task does not block the parallel python scheduler", "statement": "When a task raises in a worker, get_results still returns, with None for this task, and the scheduler can be used further, with both result containers.", "quantifier": "all interleavings and sets of failing tasks", "why_tests_cant": "all interleavings and failures", "anchors": ["mdp/parallel/pp_support.py:PPScheduler", "mdp/parallel/scheduling.py:OrderedResultContainer"]}
{"id": "C303", "title": "kill_slaves kills the recorded slaves", "statement": "kill_slaves on the kill file of a NetworkPPScheduler sends the kill command to exactly the slaves that were started, each with its pid, also when starting failed half-way.", "quantifier": "all lists of slaves, answers of the machines and addresses", "why_tests_cant": "all lists of slaves", "anchors": ["mdp/parallel/pp_support.py:kill_slaves", "mdp/parallel/pp_support.py:NetworkPPScheduler"]}
{"id": "C304", "title": "NetworkPPScheduler starts the slaves it is given", "statement": "When all machines answer, a NetworkPPScheduler starts all its slaves, with the documented values of its arguments: a name for the kill file or None, a number of processes or None.", "quantifier": "all lists of slaves and values of the arguments", "why_tests_cant": "all arguments", "anchors": ["mdp/parallel/pp_support.py:NetworkPPScheduler"]}
{"id": "C305", "title": "Every algorithm of sklearn is found once", "statement": "Traversing sklearn ends and calls the action exactly once for every public class with fit, predict or transform in a module reached through public names, however modules import each other.", "quantifier": "all module graphs, with cycles and classes imported several times", "why_tests_cant": "all module graphs", "anchors": ["mdp/nodes/scikits_nodes.py:apply_to_scikits_algorithms"]}
{"id": "C306", "title": "Every algorithm of sklearn gets its node", "statement": "Each class of sklearn that can be fitted becomes a node under its name, a classifier node, else a transformer node, else a predictor node, depending on what it is.", "quantifier": "all sets of classes", "why_tests_cant": "all sets of classes", "anchors": ["mdp/nodes/scikits_nodes.py:wrap_scikits_algorithms"]}
{"id": "C307", "title": "The generated BiNodes take the arguments of their nodes", "statement": "A generated BiNode class accepts and refuses the same calls as the node it is made from, hands the same values to it, and takes node_id and stop_result in addition.", "quantifier": "all signatures and calls", "why_tests_cant": "all signatures and calls", "anchors": ["bimdp/nodes/autogen.py:_binode_code", "bimdp/binode.py:BiNode"]}
{"id": "C308", "title": "Different nodes get different BiNodes", "statement": "The name of a generated class is the name of the node with its ending replaced, so that no generated class replaces another.", "quantifier": "all names of nodes", "why_tests_cant": "all names", "anchors": ["bimdp/nodes/autogen.py:_binode_code"]}
{"id": "C309", "title": "A template is read as it is written", "statement": "Every text with its dollar signs doubled is a template whose output is the text; a template written from pieces (text, expressions, code, sub-templates, continuations) is compiled into exactly these pieces; a dollar sign that begins no directive is a SyntaxError.", "quantifier": "all texts and lists of pieces", "why_tests_cant": "all texts", "anchors": ["mdp/utils/templet.py:_TemplateBuilder"]}
{"id": "C310", "title": "Code in a template keeps its relative indentation", "statement": "All lines of embedded code are moved to the left by the same number of columns, only white space is removed from lines with code, and some line of code begins in the first column.", "quantifier": "all pieces of code", "why_tests_cant": "all texts", "anchors": ["mdp/utils/templet.py:_TemplateBuilder"]}
{"id": "C311", "title": "LibSVM parameters are what the user gave", "statement": "A LibSVMClassifier is made with a known kernel and classifier and known parameters; the kernel and classifier used are those named, every parameter has the value given last, and anything unknown is refused.", "quantifier": "all names and lists of parameters", "why_tests_cant": "all arguments", "anchors": ["mdp/nodes/libsvm_classifier.py:LibSVMClassifier"]}
{"id": "C312", "title": "Options of one Shogun classifier do not reach another", "statement": "After any history of creating ShogunSVMClassifier nodes and setting options, each node has the options it was given on top of the defaults.", "quantifier": "all histories of constructions and set_options", "why_tests_cant": "all histories", "anchors": ["mdp/nodes/shogun_svm_classifier.py:ShogunSVMClassifier"]}
{"id": "C313", "title": "A Shogun kernel gets its options", "statement": "set_kernel makes the kernel that is named with the options given by name, the others at their defaults, and refuses unknown kernels and options.", "quantifier": "all names and options", "why_tests_cant": "all arguments", "anchors": ["mdp/nodes/shogun_svm_classifier.py:ShogunSVMClassifier.set_kernel"]}
{"id": "C314", "title": "A Shogun classifier is chosen among the available ones", "statement": "set_classifier uses a class object or, for a text, the first class of the Shogun modules with this name that can be made; if there is none a NodeException is raised.", "quantifier": "all sets of installed classes", "why_tests_cant": "all sets of classes", "anchors": ["mdp/nodes/shogun_svm_classifier.py:ShogunSVMClassifier.set_classifier"]}
{"id": "C315", "title": "A training set contains each labelled point once", "statement": "training_set of a classifier that collects its data returns every data point with its label exactly once, in the order of training or, on request, ordered by label with the order of training inside each label.", "quantifier": "all sequences of chunks and labels", "why_tests_cant": "all training histories", "anchors": ["mdp/nodes/shogun_svm_classifier.py:ShogunSVMClassifier", "mdp/classifier_node.py:ClassifierCumulator"]}
{"id": "C316", "title": "Peeking loses no data", "statement": "However next and peek are mixed, a PeekIterator yields the elements of the iterator once and in order, and peek returns those that follow; taking the first element of an iterable for inspection leaves an iterable that yields the same elements.", "quantifier": "all iterators and sequences of calls", "why_tests_cant": "all sequences of calls", "anchors": ["bimdp/inspection/utils.py:PeekIterator", "bimdp/inspection/utils.py:first_iterable_elem", "bimdp/inspection/facade.py:show_training"]}
{"id": "C317", "title": "Tracing does not change a flow", "statement": "While a flow is traced each method of its nodes does what it does otherwise and writes one slide; after the trace the flow is as after the same execution without a trace, also when the execution raises; copies of a traced node have nothing of the tracer.", "quantifier": "all flows, bodies of methods and results", "why_tests_cant": "all flows and executions", "anchors": ["bimdp/inspection/tracer.py:InspectionHTMLTracer", "bimdp/inspection/tracer.py:TraceDecorationVisitor", "bimdp/inspection/tracer.py:InspectionHTMLTracer.trace_execution"]}
{"id": "C318", "title": "Tracing restores clone layers", "statement": "After decorating a clone layer for a trace and removing the decoration each place of the layer holds a node with the attributes and state from before, and one node is shared by all places where it was.", "quantifier": "all stores of nodes and clone layers", "why_tests_cant": "all stores", "anchors": ["bimdp/inspection/tracer.py:TraceDecorationVisitor"]}
{"id": "C319", "title": "Snapshots of the training are complete and removable", "statement": "A flow prepared for the inspection of its training writes one snapshot after each training phase, with the state at that time, and removing the inspection gives back the flow that was prepared with its trained nodes.", "quantifier": "all flows and numbers of training phases", "why_tests_cant": "all training histories", "anchors": ["bimdp/inspection/tracer.py:prepare_training_inspection", "bimdp/inspection/tracer.py:remove_inspection_residues"]}
{"id": "C320", "title": "The slides of a training show the phases in order", "statement": "inspect_training shows the snapshots in the order in which they were written, and its table of slides leads from each node and phase to its slides.", "quantifier": "all numbers of snapshots and slides", "why_tests_cant": "all numbers of snapshots", "anchors": ["bimdp/inspection/facade.py:inspect_training", "bimdp/inspection/tracer.py:_trace_biflow_training"]}
{"id": "C321", "title": "The debug mode of inspections shows the error", "statement": "With debug=True an inspection whose execution raises still writes its slides, followed by the error.", "quantifier": "all numbers of slides before the error", "why_tests_cant": "all executions", "anchors": ["bimdp/inspection/facade.py:inspect_execution"]}
{"id": "C322", "title": "The ordered dictionary keeps the order of insertion", "statement": "After any sequence of operations an OrderedDict iterates over its items in the order in which their keys were first inserted since they were last removed, in both directions, and popitem takes the last or the first one.", "quantifier": "all sequences of operations", "why_tests_cant": "all histories", "anchors": ["mdp/utils/_ordered_dict.py:OrderedDict"]}
{"id": "C323", "title": "The numerical backend is the one asked for", "statement": "If MDPNUMX names a backend it is used, or the import of the package fails; without it scipy is used if available, otherwise numpy; the backend is recorded in the configuration.", "quantifier": "all values of the variable and outcomes of the imports", "why_tests_cant": "all environments", "anchors": ["mdp/configuration.py:get_numx"]}
{"id": "C324", "title": "Old versions of dependencies are recognised", "statement": "A version is called too old exactly if it can be read as numbers up to the first difference from the known good version and is smaller as a tuple.", "quantifier": "all version texts and known good versions", "why_tests_cant": "all versions", "anchors": ["mdp/configuration.py:_version_too_old"]}
{"id": "C325", "title": "The wrappers of node methods are transparent", "statement": "In a hierarchy of node classes a call of train, execute, etc. of any class runs the nearest public method of the source, however many classes define private methods; its documentation and signature are those of the nearest documented private or public method.", "quantifier": "all hierarchies of classes", "why_tests_cant": "all hierarchies", "anchors": ["mdp/signal_node.py:NodeMetaclass"]}
{"id": "C326", "title": "Extensions of public methods reach all nodes", "statement": "While an extension of a public method of Node is active, calls of this method of every node class without an own public method run the method of the extension.", "quantifier": "all hierarchies of classes", "why_tests_cant": "all hierarchies", "anchors": ["mdp/signal_node.py:NodeMetaclass", "mdp/extension.py:activate_extension", "mdp/caching/caching_extension.py:CacheExecuteExtensionNode"]}
{"id": "C327", "title": "Slow features with variable time steps", "statement": "However a signal with given time increments is cut into chunks of at least two rows, VartimeSFANode trained on the chunks in order computes with the time-weighted covariance of the whole signal and the time-weighted second moments of its difference quotients, those between chunks included; without time dependence only the time inside chunks counts.", "quantifier": "all signals, time increments and ways to cut them", "why_tests_cant": "all data and chunkings", "anchors": ["mdp/nodes/sfa_nodes.py:VartimeSFANode"]}
{"id": "C328", "title": "Parallel training of VartimeSFANode equals sequential training", "statement": "Training a VartimeSFANode with one fork per chunk and joining the forks gives the same result as training it on the chunks one after the other.", "quantifier": "all signals and ways to cut them", "why_tests_cant": "all data and chunkings", "anchors": ["mdp/nodes/sfa_nodes.py:VartimeSFANode", "mdp/parallel/parallelnodes.py:ParallelSFANode"]}
{"id": "C329", "title": "The linear inverse of iGSFA", "statement": "From the output of an iGSFANode for a row its linear inverse computes the mean, the part of the row that the slow features explain, and the projection of the rest to the principal components that were kept; the row itself if nothing of the rest is lost.", "quantifier": "all trained nodes, scaling methods and rows", "why_tests_cant": "all nodes and data", "anchors": ["mdp/nodes/gsfa_nodes.py:iGSFANode"]}
{"id": "C330", "title": "The explained variance of iGSFA", "statement": "With a scaling method based on the regression, the scaled slow features have together the variance of the part of the input that they explain, and the explained variance of the node is one minus the share of the variance of the input that the linear inverse does not give back.", "quantifier": "all trained nodes and data", "why_tests_cant": "all nodes and data", "anchors": ["mdp/nodes/gsfa_nodes.py:iGSFANode"]}
{"id": "C331", "title": "The sizes of the two parts of iGSFA", "statement": "The slow part and the principal components of a trained iGSFANode together have the output dimension; an integer delta_threshold is the exact size of the slow part, a real one keeps the slow features with delta values up to it; the output has as many columns.", "quantifier": "all dimensions, bounds and thresholds", "why_tests_cant": "all dimensions", "anchors": ["mdp/nodes/gsfa_nodes.py:iGSFANode", "mdp/nodes/gsfa_nodes.py:SFANode_reduce_output_dim"]}
{"id": "C332", "title": "Shortened nodes compute the first features", "statement": "After reducing the output dimension of a trained SFA or PCA node its output is the first columns of the output before, and the explained variance of the PCA is the share of the variance in the components that are left.", "quantifier": "all trained nodes and new dimensions", "why_tests_cant": "all nodes", "anchors": ["mdp/nodes/gsfa_nodes.py:SFANode_reduce_output_dim", "mdp/nodes/gsfa_nodes.py:PCANode_reduce_output_dim"]}
{"id": "C333", "title": "iGSFA is trained in one or several batches", "statement": "With the default scaling an iGSFANode uses all batches it is trained with until training is stopped; with reconstruction by the slow part the first batch finishes the training and further ones are refused.", "quantifier": "all sequences of batches", "why_tests_cant": "all histories", "anchors": ["mdp/nodes/gsfa_nodes.py:iGSFANode"]}
{"id": "C334", "title": "Delta values and Hamming weights", "statement": "graph_delta_values and comp_delta are the weighted means of squared differences over the edges of the graph or of the chain of samples; Hamming_weight is the number of bits that are one.", "quantifier": "all data, graphs and integers", "why_tests_cant": "all inputs", "anchors": ["mdp/nodes/gsfa_nodes.py:graph_delta_values", "mdp/nodes/gsfa_nodes.py:comp_delta", "mdp/nodes/gsfa_nodes.py:Hamming_weight"]}
{"id": "C335", "title": "A default fork is made with the arguments of the node", "statement": "The default implementation of forking makes a node with the same arguments if they are kept in attributes with their names, possibly with an underscore in front; if an argument cannot be found the node is reported as not forkable.", "quantifier": "all signatures and attributes", "why_tests_cant": "all classes", "anchors": ["mdp/parallel/parallelnodes.py:ParallelExtensionNode"]}
{"id": "C336", "title": "Nodes of a BiFlow by their id", "statement": "flow[node_id] is the first node with this id, also inside bi-flow nodes and clone layers, node_id in flow says whether there is one, and nodes cannot be set or deleted by id.", "quantifier": "all nested flows and ids", "why_tests_cant": "all structures", "anchors": ["bimdp/biflow.py:BiFlow", "bimdp/hinet/biflownode.py:BiFlowNode", "bimdp/hinet/bilayer.py:CloneBiLayer"]}
{"id": "C337", "title": "The two implementations of graph training agree", "statement": "update_graph_old, the reference implementation of training with a user-given graph, adds exactly the weighted samples and differences of the graph, for dictionaries and for arrays, and update_graph gives the same sums or the same refusal.", "quantifier": "all data, node weights and edge weights", "why_tests_cant": "all graphs", "anchors": ["mdp/nodes/gsfa_nodes.py:CovDCovMatrix.update_graph_old", "mdp/nodes/gsfa_nodes.py:CovDCovMatrix.update_graph"]}
{"id": "C338", "title": "Compact classes", "statement": "For samples sorted into 2^J classes of equal size, training mode compact_classesL connects two samples for each of L labels they share, with normalised weights; the labels are the bits of the class and parities of distinct sets of bits, each of which splits the samples into halves. Other numbers of samples or labels are refused without effect.", "quantifier": "all data, class sizes and numbers of labels", "why_tests_cant": "all sizes", "anchors": ["mdp/nodes/gsfa_nodes.py:CovDCovMatrix.update_compact_classes"]}
{"id": "C339", "title": "Unlabelled samples with smart_unlabeled2", "statement": "Training with smart_unlabeled2 after labelled samples gives the sums of one graph of labelled and unlabelled samples with nonnegative weights, in which the weights of the edges at each sample sum up to its weight if they were proportional to it before.", "quantifier": "all labelled graphs and unlabelled samples", "why_tests_cant": "all data", "anchors": ["mdp/nodes/gsfa_nodes.py:GSFANode._train"]}
{"id": "C340", "title": "Unlabelled samples with smart_unlabeled3", "statement": "Training with smart_unlabeled3 after labelled samples gives the weighted sums of labelled samples with weight one and unlabelled samples with a fixed weight; a refused call has no effect.", "quantifier": "all labelled graphs and unlabelled samples", "why_tests_cant": "all data", "anchors": ["mdp/nodes/gsfa_nodes.py:GSFANode._train"]}
{"id": "C341", "title": "Pictures of flows", "statement": "show_flow writes a page in which the nodes of a flow stand below each other, the nodes of a layer side by side and the inner nodes within their containers, each with its dimensions and name, for every nesting; if the representations of the nodes are proper HTML, so is the page. If the representation of one node raises, nothing is written.", "quantifier": "all flows with any nesting of layers and flow nodes, all options", "why_tests_cant": "all nestings", "anchors": ["mdp/hinet/htmlvisitor.py:HiNetHTMLVisitor", "mdp/hinet/htmlvisitor.py:show_flow", "bimdp/hinet/bihtmlvisitor.py:BiHiNetHTMLVisitor"]}
{"id": "C342", "title": "Representations of single nodes", "statement": "Every node can be shown in the picture of a flow with its own data: switchboards with their sizes and, exactly if there are any, unused channels; clone layers of BiNodes with use_copies.", "quantifier": "all switchboards and layers", "why_tests_cant": "all nodes", "anchors": ["mdp/hinet/htmlvisitor.py:_rect2d_switchoard_html", "mdp/hinet/htmlvisitor.py:_double_rect2d_switchoard_html", "bimdp/hinet/bihtmlvisitor.py:BiHiNetHTMLVisitor"]}
{"id": "C343", "title": "Wrapped sklearn algorithms are trained with all data", "statement": "A wrapped sklearn algorithm collects the data of all training calls; stop_training calls fit exactly once with all rows in order, and afterwards execution returns what the fitted algorithm returns; the output dimension of the node is the number of columns it returns.", "quantifier": "all algorithms, all sequences of training data", "why_tests_cant": "all algorithms and data", "anchors": ["mdp/nodes/scikits_nodes.py:wrap_scikits_transformer", "mdp/nodes/scikits_nodes.py:wrap_scikits_predictor"]}
{"id": "C344", "title": "A failed fit can be repeated", "statement": "If fit raises, the exception reaches the caller, the node remains in training, and the training can be completed later.", "quantifier": "all histories after a failed fit", "why_tests_cant": "all histories", "anchors": ["mdp/nodes/scikits_nodes.py:wrap_scikits_transformer", "mdp/nodes/scikits_nodes.py:wrap_scikits_predictor"]}
{"id": "C345", "title": "Wrapped supervised algorithms and classifiers", "statement": "Every wrapped sklearn algorithm can be trained; classifiers are fitted once with all rows and their labels in order, and give labels, probabilities and ranks.", "quantifier": "all algorithms, data and histories", "why_tests_cant": "all histories", "anchors": ["mdp/nodes/scikits_nodes.py:wrap_scikits_classifier", "mdp/nodes/scikits_nodes.py:wrap_scikits_predictor"]}
{"id": "C346", "title": "Singular problems by LDL decomposition", "statement": "symeig_semidefinite_ldl, for a positive semidefinite B, returns vectors that are orthonormal for B, diagonalise A and span everything up to the null space of B, in ascending order of the eigenvalues, whatever interchanges of rows the decomposition makes; the rank deficit is the number of missing vectors, and eigenvalues below rank_threshold count as zero. Slow feature analysis with rank_deficit_method 'ldl' therefore gives uncorrelated outputs of unit variance, the slowest ones.", "quantifier": "all symmetric A, all semidefinite B, all pivots, all training data", "why_tests_cant": "all matrices and all pivotings", "anchors": ["mdp/utils/symeig_semidefinite.py:symeig_semidefinite_ldl", "mdp/nodes/sfa_nodes.py:SFANode"]}
{"id": "C347", "title": "Trying another way of dealing with a rank deficit", "statement": "If stop_training of slow feature analysis fails, setting another rank_deficit_method and calling stop_training again gives the filters which that method would have given at once, after any number of failed calls.", "quantifier": "all training data, all sequences of failed calls, all methods", "why_tests_cant": "all sequences of failures", "anchors": ["mdp/nodes/sfa_nodes.py:SFANode._stop_training", "mdp/utils/symeig_semidefinite.py"]}
{"id": "C348", "title": "Training support vector machines", "statement": "The library behind LibSVMClassifier and ShogunSVMClassifier is given every training row, in order, with its own label, however the data were divided; probabilities are listed under the label of their class; if stop_training of the Shogun node fails because no kernel was set, setting one and calling it again gives the machine that would have been trained at once.", "quantifier": "all training data, all divisions into chunks, all histories of failed calls", "why_tests_cant": "all divisions and histories", "anchors": ["mdp/nodes/libsvm_classifier.py:LibSVMClassifier._stop_training", "mdp/nodes/libsvm_classifier.py:LibSVMClassifier._prob", "mdp/nodes/shogun_svm_classifier.py:ShogunSVMClassifier._stop_training", "mdp/classifier_node.py:ClassifierCumulator"]}
{"id": "C349", "title": "Approximate inverses by least squares", "statement": "The approximate preimages found for an expansion or by iGSFA's nonlinear inverse have residuals that are not larger than those of the points the search starts from, row by row.", "quantifier": "all expansions, all data, all start values", "why_tests_cant": "all functions and start values", "anchors": ["mdp/nodes/expansion_nodes.py:GeneralExpansionNode.pseudo_inverse", "mdp/utils/routines.py:invert_exp_funcs2", "mdp/nodes/gsfa_nodes.py:iGSFANode.nonlinear_inverse"]}
{"id": "C350", "title": "Representations of nodes and flows", "statement": "repr of two nodes agrees exactly if class, dimensions and dtype (for a BiNode also node_id) agree; repr of two flows agrees exactly if their nodes agree so one by one; str of a flow tells the classes of its nodes in order; repr is an expression that gives an object of the same value.", "quantifier": "all nodes, all flows", "why_tests_cant": "all names, dimensions and lists of nodes", "anchors": ["mdp/signal_node.py:Node.__repr__", "bimdp/binode.py:BiNode.__repr__", "mdp/linear_flows.py:Flow.__repr__", "mdp/linear_flows.py:Flow.__str__", "mdp/nodes/sfa_nodes_online.py:IncSFANode.__repr__"]}
{"id": "C351", "title": "The inverse of online slow feature analysis", "statement": "Executing the inverse of an output of IncSFANode gives this output, and the inverse of the output of an input is the point nearest to the input among the average plus all combinations of the slow features.", "quantifier": "all trained nodes, all outputs, all inputs", "why_tests_cant": "all features and inputs", "anchors": ["mdp/nodes/sfa_nodes_online.py:IncSFANode._inverse", "mdp/nodes/stats_nodes_online.py:OnlineCenteringNode._execute"]}
{"id": "C352", "title": "Saving nodes and flows", "statement": "save(filename, protocol) writes what save(None, protocol) returns, whatever the file contained; loading it gives the node or flow back; no other file changes; if it fails the file is as before. Snapshots make their directory if needed.", "quantifier": "all objects, all protocols, all states of the file system, all failures of pickling", "why_tests_cant": "all failures and all previous contents", "anchors": ["mdp/signal_node.py:Node.save", "mdp/linear_flows.py:Flow.save", "mdp/linear_flows.py:CheckpointSaveFunction", "bimdp/inspection/utils.py:robust_pickle", "bimdp/inspection/utils.py:robust_write_file"]}
{"id": "C353", "title": "Options of the whitening in ICA nodes", "statement": "The whitening node of ICANode, FastICANode, JADENode, ISFANode and TDSEPNode is made with exactly the options in white_parm as given at construction; unknown options are refused; dictionaries given to a node are not changed.", "quantifier": "all option dictionaries and all later changes of them by the caller", "why_tests_cant": "all dictionaries", "anchors": ["mdp/nodes/ica_nodes.py:ICANode.__init__", "mdp/nodes/ica_nodes.py:ICANode._stop_training", "mdp/nodes/ica_nodes.py:TDSEPNode.__init__", "mdp/nodes/isfa_nodes.py:ISFANode.__init__", "mdp/nodes/xsfa_nodes.py:XSFANode._initialize_internal_flow"]}
{"id": "C354", "title": "Copies, pickles and comparison of ordered dictionaries", "statement": "After any history of insertions, deletions and pops, copy() and pickling of an OrderedDict give a dictionary with the same items in the same order that behaves like the original ever after; fromkeys keeps the order of first occurrence; setdefault and pop change only their key; two OrderedDicts are equal if and only if their items are the same in the same order, and an OrderedDict equals another dictionary if and only if the items are the same; equality is transitive.", "quantifier": "all histories of operations, all keys and values", "why_tests_cant": "all histories", "anchors": ["mdp/utils/_ordered_dict.py:OrderedDict.copy", "mdp/utils/_ordered_dict.py:OrderedDict.__reduce__", "mdp/utils/_ordered_dict.py:OrderedDict.fromkeys", "mdp/utils/_ordered_dict.py:OrderedDict.__eq__"]}
{"id": "C355", "title": "Modules of exported objects", "statement": "fixup_namespace ends for all objects, also if their attributes refer to each other in cycles. Exactly the exported objects from the private modules, and what is reachable from them by public attributes through such objects, get the package as their module; exactly the private modules that are not kept are deleted from the package. A missing exported name raises AttributeError before modules are deleted.", "quantifier": "all object graphs, all names, all lists of private and kept modules", "why_tests_cant": "all graphs, with cycles", "anchors": ["mdp/utils/__init__.py:fixup_namespace", "mdp/utils/__init__.py:_fixup_namespace_item", "mdp/utils/__init__.py:_without_prefix"]}
{"id": "C356", "title": "The slides of an inspection are complete", "statement": "The inspection of an execution or a training writes one slide file for each call of a traced method, with different names also across snapshots, training and its end, in the order of the calls and with the id of the node; no slide overwrites another and no other file changes; the slideshow page shows for each slide exactly the text written for its call, whatever this text is.", "quantifier": "all sequences of calls, all snapshots, all texts and previous files", "why_tests_cant": "all texts and all numbers of slides", "anchors": ["bimdp/inspection/tracer.py:InspectionHTMLTracer.trace_training", "bimdp/inspection/tracer.py:InspectionHTMLTracer._tracer_callback", "bimdp/inspection/tracer.py:InspectionHTMLTracer._begin_HTML_frame", "bimdp/inspection/tracer.py:_trace_biflow_training", "bimdp/inspection/slideshow.py:ExecuteHTMLSlideShow"]}
{"id": "C357", "title": "The generator of an online network is shared and makes training reproducible", "statement": "Assigning a random number generator to an online node, layer or flow node makes every online node in it, at every level, use this generator and changes nothing else; None changes nothing and any other value is refused; the nodes then draw their initial vectors one after the other from this generator and from no other, once; networks that differ only in their previous generators, given generators in the same state, get the same vectors and leave the generators in the same state.", "quantifier": "all nested networks, all generators and their states, all seeds of the system", "why_tests_cant": "all nestings and all previous generators", "anchors": ["mdp/signal_node_online.py:OnlineNode.set_numx_rng", "mdp/hinet/layer_online.py:OnlineLayer._set_numx_rng", "mdp/hinet/flownode_online.py:OnlineFlowNode._set_numx_rng", "mdp/nodes/sfa_nodes_online.py:IncSFANode._set_numx_rng", "mdp/nodes/pca_nodes_online.py:CCIPCANode._check_params"]}
{"id": "C358", "title": "A node keeps the generator it was given", "statement": "An online node that was given a random number generator draws its initial vectors from this generator, alone or in a layer.", "quantifier": "all nested networks, all generators and their states", "why_tests_cant": "all nestings and histories of generators", "anchors": ["mdp/signal_node_online.py:OnlineNode._check_input", "mdp/hinet/layer_online.py:OnlineLayer.__init__", "mdp/hinet/layer_online.py:OnlineLayer._set_numx_rng"]}
{"id": "C359", "title": "Optional dependencies never break the import, and disabling them works", "statement": "Importing mdp registers python, mdp and every optional dependency exactly once; an optional dependency counts as available exactly if it can be imported, in a supported version, and is not disabled by its variable in the environment (set to a text that is not empty); missing dependencies never make the import fail, and a disabled dependency is not imported; a secret of parallel python that is there is kept.", "quantifier": "all environments, all outcomes of imports, all versions", "why_tests_cant": "all combinations of installed, broken and disabled packages", "anchors": ["mdp/configuration.py:set_configuration", "mdp/configuration.py:_pp_needs_monkeypatching"]}
{"id": "C360", "title": "Supported types follow the backend", "statement": "get_dtypes gives the types of the codes that numpy knows, without the large and half floating point types exactly if the backend (the solver scipy.linalg.eigh) does not support them; with _safe=False it gives all of them.", "quantifier": "all lists of type codes, all backends", "why_tests_cant": "all typecodes and configurations", "anchors": ["mdp/utils/routines.py:get_dtypes"]}
{"id": "C361", "title": "Slides of a trace mark the nodes", "statement": "On each slide of an inspection there is one table for the flow and each of its nodes, in order; exactly the tables of the node that was called are marked as current, and of the others exactly those of plain nodes in training as training; exactly the traced nodes are clickable, with ids that are numbered in order and do not occur twice; the id recorded for a slide is that of the node that was called; a node has the same ids on all slides of the flow.", "quantifier": "all flows with any nesting of layers and flow nodes, all current nodes, all states of the training", "why_tests_cant": "all nestings and histories", "anchors": ["bimdp/inspection/tracer.py:TraceHTMLVisitor.convert_flow", "bimdp/inspection/tracer.py:TraceHTMLVisitor._open_node_env", "bimdp/inspection/tracer.py:TraceHTMLConverter.write_html"]}
{"id": "C362", "title": "Slides of a trace show the data of the call", "statement": "The slide for a call shows the data, the message and the named arguments of the call and the data, the message and the target of its result, each in a line of its own, the entries of messages ordered by name with arrays at the end; every slide is proper HTML.", "quantifier": "all arguments and results of calls", "why_tests_cant": "all values of arguments and results", "anchors": ["bimdp/inspection/tracer.py:TraceHTMLConverter._array_pretty_html", "bimdp/inspection/tracer.py:TraceHTMLConverter._dict_pretty_html", "bimdp/inspection/tracer.py:TraceHTMLConverter.write_html", "bimdp/inspection/tracer.py:TraceHTMLConverter._write_data_html"]}
{"id": "C363", "title": "Controls of a slideshow", "statement": "A slideshow is made exactly if there are slides and, with sections, as many names of sections. Whatever is clicked, typed and timed out, no script of its page fails or runs forever, and the page shows one slide, which is the one selected in the menu and whose section is highlighted; the buttons lead to the next, previous, first and last slide and to the beginning of the next and previous section, the links to the sections; the automatic show presents the slides in order, one per delay, and ends with the last one or continues forever with the first; the delay is never negative.", "quantifier": "all slides, sections, sequences of events and interleavings of clicks and timeouts", "why_tests_cant": "all sequences of events", "anchors": ["mdp/utils/slideshow.py:HTMLSlideShow.template", "mdp/utils/slideshow.py:SectionHTMLSlideShow.js_update_template", "mdp/utils/slideshow.py:SectionHTMLSlideShow.html_controls_template", "mdp/utils/slideshow.py:image_slideshow"]}
{"id": "C364", "title": "Data, messages and targets of an execution of a BiFlow", "statement": "BiFlow.execute processes a single array or a single message as one chunk with the given message and target; an iterable of data with the messages and targets at the same positions, in order, None where messages or targets are left out; messages without data likewise; without data and messages, or without a single chunk, it raises an exception. The tasks of a parallel execution are the same chunks in the same order.", "quantifier": "all arrays, messages, targets and iterables of any length", "why_tests_cant": "all combinations and lengths of the arguments", "anchors": ["bimdp/biflow.py:BiFlow._sanitize_iterables", "bimdp/biflow.py:NoneIterable", "bimdp/biflow.py:BiFlow.execute", "bimdp/parallel/parallelbiflow.py:ParallelBiFlow.setup_parallel_execution", "bimdp/parallel/parallelbiflow.py:ParallelBiFlow._create_execute_task"]}
{"id": "C365", "title": "Data and messages of a training of a BiFlow", "statement": "BiFlow.train trains each trainable node with the chunks and messages given for it, at the same positions and in order; with a single array, each trainable node with this array and the message. If the number of iterables is not the number of nodes, it raises an exception before any node is trained.", "quantifier": "all flows, arrays, messages and lists of iterables", "why_tests_cant": "all combinations and lengths of the arguments", "anchors": ["bimdp/biflow.py:BiFlow._sanitize_training_iterables", "bimdp/biflow.py:BiFlow.train", "bimdp/biflow.py:BiFlow._train_node", "mdp/linear_flows.py:Flow._train_check_iterables"]}
{"id": "C366", "title": "Phases of a training of a BiFlow", "statement": "BiFlow.train trains the nodes one after the other; each phase of a node gets all its data with the messages at the same positions, in order, and is closed with the stop message of the node before the next phase begins. If the data or messages of a node with several phases cannot be repeated, an exception is raised instead of training the second phase. A wrong number of stop messages is refused.", "quantifier": "all flows, numbers of phases, iterables, iterators, messages and stop messages", "why_tests_cant": "all numbers of phases and all lengths", "anchors": ["bimdp/biflow.py:BiFlow.train", "bimdp/biflow.py:BiFlow._train_node", "bimdp/biflow.py:BiFlow._train_node_single_phase"]}
{"id": "C367", "title": "Tasks of a parallel training of a BiFlow", "statement": "The tasks that ParallelBiFlow.train gives to the scheduler are the chunks and messages with which BiFlow.train trains, in the same phases and order; each phase is closed with the same stop message; whether a phase can be forked makes no difference. It raises an exception if and only if BiFlow.train raises one.", "quantifier": "all flows, numbers of phases, iterables, iterators, messages, stop messages and sets of phases that can be forked", "why_tests_cant": "all combinations of phases", "anchors": ["bimdp/parallel/parallelbiflow.py:ParallelBiFlow._create_train_task", "bimdp/parallel/parallelbiflow.py:ParallelBiFlow._next_train_phase", "bimdp/parallel/parallelbiflow.py:ParallelBiFlow._local_train_phase", "bimdp/parallel/parallelbiflow.py:ParallelBiFlow.use_results", "mdp/parallel/parallelflows.py:ParallelFlow.get_task"]}
{"id": "C368", "title": "Every node has a BiMDP version", "statement": "Importing bimdp.nodes defines exactly one class for each node and each classifier of mdp.nodes except NoiseNode; its name is that of the node with the ending Node replaced by BiNode or Classifier by BiClassifier, and it is derived from that node.", "quantifier": "all contents of the module mdp.nodes", "why_tests_cant": "the contents of mdp.nodes depend on what is installed", "anchors": ["bimdp/nodes/autogen.py:_get_node_subclasses", "bimdp/nodes/autogen.py:_binode_module", "bimdp/nodes/autogen.py:binodes_code", "bimdp/nodes/autogen.py:biclassifiers_code"]}
{"id": "C369", "title": "The report on the arrays of a node is a complete, sorted, aligned table", "statement": "The text of dig_node has one line for each array found, in ascending order of the names; a line begins with the name and a colon and ends with the size and the word bytes, at least one blank between; all these lines have the same length. The last line gives the number of the arrays and the sum of the sizes.", "quantifier": "all non-empty dictionaries of names and sizes", "why_tests_cant": "names and sizes are unbounded; the widths depend on all entries", "anchors": ["mdp/utils/introspection.py:_format_dig", "mdp/utils/introspection.py:dig_node"]}
{"id": "C370", "title": "The page of an inspection or slideshow is complete when it is shown", "statement": "show_training, show_execution and show_image_slideshow write the whole page to the file, and it is all there when the browser is opened; the browser is the one asked for, or the default one with a warning if there is none of this name, or none if open_browser is False.", "quantifier": "all pages, all sizes and strategies of file buffers, all browsers, whatever was in the file before", "why_tests_cant": "what a browser finds depends on the buffer of the file and the size of the page, and on what is done before the function returns", "anchors": ["bimdp/inspection/facade.py:show_training", "bimdp/inspection/facade.py:show_execution", "bimdp/inspection/facade.py:_open_custom_brower", "mdp/utils/slideshow.py:show_image_slideshow"]}
{"id": "C371", "title": "The XHTML picture of a flow", "statement": "A HiNetXHTMLVisitor writes, for each flow converted, the text of the HTML picture in which each <br> is replaced by <br /> and each &nbsp; by &#160;, and nothing else is changed, so that no <br> and no &nbsp; is left; the pictures of several flows are written one after the other.", "quantifier": "all pictures and all sequences of calls, some with exceptions", "why_tests_cant": "all texts, also those in which the names of nodes look like parts of tags", "anchors": ["mdp/hinet/htmlvisitor.py:HiNetXHTMLVisitor.convert_flow", "mdp/hinet/htmlvisitor.py:NewlineWriteFile"]}
