# Formal model of mdp-toolkit in Lean 4

## Layout

* `properties.jsonl` – the properties, in English.
* `lean/Verif/<Area>/` – models, specifications, lemmas and property theorems. Files named `*Props*` hold the property
  theorems; each is followed by an `example` (or a named witness) showing that its hypotheses can be met. Every definition
  of a model cites the file and lines of `/repo` it stands for; the header of the file lists the simplifications.
* `lean/Verif/Py/` – semantics of Python that several models share: `State` (an object that is mutated by code that may
  raise), `Loop` (unbounded `while` loops), `Slice` (list indexing and slicing), `Dict` (dictionaries in insertion order).
* `lean/Verif/Axioms.lean` – `#print axioms` for every theorem named in the manifest (generated).
* `MANIFEST.json` – property -> theorem names and status.
* `seeded/LOG.jsonl` – wrong programs tried against the theorems.

## Trusted base

* The Lean 4.33.0 kernel and the axioms `propext`, `Classical.choice`, `Quot.sound` (list per theorem below). No axioms of
  our own, no `sorry`, no `native_decide`, no `bv_decide`.
* The statements of the theorems and of the definitions they use.
* The reading of the Python code. The code was not run; nothing but the citations ties the model to it. The semantics of
  Python builtins, numpy functions and library classes that the models use (list slicing, `argsort`, `split`, dictionary
  order, threads and locks …) is what their documentation says.

## Conventions of all models

* Python exceptions are values. State mutated before an exception is kept.
* Code that users supply (`_train`, `_execute`, callables, visit functions, checkpoint functions …) is a parameter: an
  arbitrary function, which may raise.
* Floating point numbers are replaced by an exact structure (a field, an ordered field, the rationals or the reals, as
  each theorem says). Rounding, overflow, NaN, infinities and casts of values are not modelled. dtypes are opaque tags.
* A loop that need not end is a step function; "returns" means that some number of steps leads to a result, so that
  partial correctness, termination and non-termination are separate statements. No theorem has a bound on steps.
* Object identity is a number where it matters (graph, extensions, caching, schedulers).
* A thread step is what happens between two operations on locks; all interleavings are considered. Real time, failures of
  the operating system and the memory model are not.
* "Violated": the code as it is does not have the property. Then the negation (or a witness) is a theorem, and what does
  hold is a theorem with the suffix `_partial` and an explicit condition.

## What is modelled, and what is not

| area | modelled | left out |
|------|----------|----------|
| `mdp/signal_node.py` | `Node`: dimensions, dtype, training phases, `train`, `stop_training`, `execute`, `inverse`, their checks; `PreserveDimNode`; `VariadicCumulator`; `NodeMetaclass` (what the wrappers call, their documentation and signature) | `copy`, `save`, `repr`, operators `+`; train sequences are of fixed length |
| `mdp/signal_node_online.py` | `OnlineNode` with incremental and batch training; cumulators as far as the node is concerned | random number generator |
| `mdp/linear_flows.py` | `Flow` container, `execute`, `inverse`, `train`; `CheckpointFlow`; crash recovery, `CheckpointSaveFunction` | failures while a dump is written, names of dumps, verbose output, text of exceptions; nodes are distinct objects |
| `mdp/linear_flows_online.py` | `OnlineFlow`, `CircularOnlineFlow` | chunks with arguments for the circular flow |
| `mdp/hinet/` | `Layer`, `CloneLayer`, `SameInputLayer`, `FlowNode`, all switchboards and their factory, `OnlineLayer`, `CloneOnlineLayer`, `SameInputOnlineLayer`, `OnlineFlowNode`, `CircularOnlineFlowNode`, the table `HiNetHTMLVisitor` draws of a flow | representations of single nodes as HTML; `FlowNode.copy`; inversion of online flow nodes; setting `output_dim` of layers by hand |
| `mdp/graph/graph.py` | all of `Graph` | data slots of edges |
| `mdp/extension.py` | registration, activation, deactivation, decorator, `with` | descriptors of metaclasses, `__getattr__`; effects of setup functions on classes |
| `mdp/parallel/` | `Scheduler`, `ThreadScheduler`, `ProcessScheduler`; forking (also the default implementation) and joining of nodes, layers and flow nodes; `PPScheduler`, the slaves of `NetworkPPScheduler`; `ParallelFlow` and `ParallelCheckpointFlow` (training and execution on schedulers) | retry branches when a thread cannot be started, pickling, what a failing task leaves in the result container of a flow, too few schedulers |
| `mdp/utils/_symeig.py`, `symeig_semidefinite.py` | `_symeig_fake`, range of `wrap_eigh`, test for blank data, solvers `pca`, `svd`, `ldl` and `reg` | LAPACK's `sytrf` and `trtri`, `eigh` and `svd` themselves, overwriting of arguments |
| `mdp/utils/covariance.py`, `routines.py`, `quad_forms.py` | extrema and invariances of quadratic forms, covariance accumulators, `comb`, `weighted_choice`, `izip_stretched`, `orthogonal_permutations`, `random_rot`, `symrand`, `rotate`, `permute`, `cov2`, `cov_maxima`, `sqrtm`, `gabor`; `progressinfo` (which elements, length of the bar); `dig_node`, sizes of nodes, `TemporaryDirectory`, `mdp.config`, choice of the backend, versions; `OrderedDict`; templates (`templet.py`: which pieces, indentation) | `inv`, `svd`, plotting, `lrep`/`rrep`/`irep`, `invert_exp_funcs2`, the distribution of random matrices |
| `mdp/caching/` | the extension and the context manager, joblib as a table without hash collisions | joblib itself, reading and writing of the cache |
| `mdp/nodes/` | expansion, recursive expansions and their normalisation, time frames, delays, hit parade, cutoff, noise, finding and wrapping of the sklearn classes, parameters of the LibSVM and Shogun classifiers, histogram, classifiers (Markov, Hopfield, perceptron, k-means, Gaussian, nearest mean, KNN), their base classes, linear regression, PCA and whitening, SFA, quadratic SFA, graph-based SFA, iGSFA, SFA with variable time steps (eigenvalue solvers as parameters), neural gas and growing neural gas, online centering and time differences, online PCA, whitening, MCA and SFA (over the reals), FDA, CuBICA, JADE and FastICA (over the reals), factor analysis, NIPALS, the schedule and projections of XSFA, radial basis, neural gas and general expansions, convolution, locally linear embedding and its Hessian variant (over the reals), ISFA and TDSEP (over the reals), RBM | eigenvalue problems, wrappers for other libraries |
| `bimdp/` | `BiNode` messages and training, `BiFlow` execution and training, access to nodes by id, `BiCheckpointFlow`, result containers, coroutines, `CloneBiLayer`, `BiSwitchboard`, `BiFlowNode`, `ParallelBiFlow`, `ParallelCloneBiLayer`, the gradient extension, `BiClassifier`, `SenderBiNode`, the signatures of the generated BiNodes; inspection: tracing, snapshots of the training, index of slides, `PeekIterator` | HTML and slide shows of the inspection; schedulers shut down by `ParallelBiFlow`, dummy nodes in the results of its tasks, checkpoint functions of `ParallelCheckpointBiFlow`; methods that change the dictionary they get as `msg`; values other than `None`, numbers and strings count as true; in training flows messages are values |

Imports other than that of the numerical backend, and visualisation other than the table drawn of a flow are not modelled. The `pickle` module is a parameter; what `save` does with it and the file system is modelled (C352), and so are the representations as text (C350).


## Properties

Status and theorem names are in `MANIFEST.json`; this table says what is modelled, how the property is proved and what falls short.

| id | title | model | proof | status and limits |
|----|-------|-------|-------|-------|
| C01 | Node training phases advance one at a time and never go back | `mdp.Node` as a state machine over `train/stop_training/execute/inverse/set_*`; hooks are arbitrary functions | invariant by induction on the call history, with a ghost trace of hook calls | proved.  |
| C02 | Each training hook sees exactly its own phase's data, in order | `mdp.Node` as a state machine over `train/stop_training/execute/inverse/set_*`; hooks are arbitrary functions | invariant by induction on the call history, with a ghost trace of hook calls | proved. A stop hook that raises may run again; it completes at most once. |
| C03 | execute only runs a fully trained node, and then leaves it unchanged | `mdp.Node` as a state machine over `train/stop_training/execute/inverse/set_*`; hooks are arbitrary functions | invariant by induction on the call history, with a ghost trace of hook calls | proved. For execute hooks that do not themselves change the node. |
| C04 | Node dimensions and dtype are write-once | `mdp.Node` as a state machine over `train/stop_training/execute/inverse/set_*`; hooks are arbitrary functions | invariant by induction on the call history, with a ghost trace of hook calls | proved. Hooks change dimensions and dtype only through the public setters. |
| C05 | User hooks only ever receive well-formed data | `mdp.Node` as a state machine over `train/stop_training/execute/inverse/set_*`; hooks are arbitrary functions | invariant by induction on the call history, with a ghost trace of hook calls | proved.  |
| C06 | A call that is rejected leaves the node as it was | same | negation with witnesses; `_partial` for every other rejection | partial. False in the code: an array without rows sets the dimensions before it is rejected, and execute closes a training phase before checking the shape (both violations proved). Proved for all other rejections. |
| C07 | PreserveDimNode keeps input_dim equal to output_dim | `PreserveDimNode` setters in the same machine | invariant | proved.  |
| C08 | Cumulator collects all training data in order | `VariadicCumulator` | fold lemma | proved.  |
| C09 | inverse is refused unless the node is invertible and trained | `mdp.Node` as a state machine over `train/stop_training/execute/inverse/set_*`; hooks are arbitrary functions | invariant by induction on the call history, with a ghost trace of hook calls | proved.  |
| C10 | Flow container operations keep neighbouring dimensions consistent | container operations of `Flow` on lists with Python index and slice semantics (`Verif/Py/Slice`) | invariant over operation histories; refinement to list operations | partial. False in the code for +=, which changes the list before checking it (violation proved). Proved for every history of all other container operations, failing or not. |
| C11 | A failing container operation does not change the flow | container operations of `Flow` on lists with Python index and slice semantics (`Verif/Py/Slice`) | invariant over operation histories; refinement to list operations | partial. False in the code for += (violation proved); proved for every other operation. |
| C12 | Flow container operations behave like list operations | container operations of `Flow` on lists with Python index and slice semantics (`Verif/Py/Slice`) | invariant over operation histories; refinement to list operations | partial. False in the code for slice assignment from an iterator, which the type check exhausts (violation proved). |
| C13 | Executing a flow is composing its nodes; nodenr truncates it | `Flow.execute/inverse` over the Node machine | induction on the node list and the chunks | partial. The law execute(x, nodenr=k) = flow[:k+1].execute(x) is false for k <= -2 and for k >= len(flow) (violations proved); proved for -1 <= k < len(flow). Composition is proved without restriction. |
| C14 | Executing or inverting chunk by chunk equals doing it at once | `Flow.execute/inverse` over the Node machine | induction on the node list and the chunks | proved.  |
| C15 | Flow.inverse undoes Flow.execute | `Flow.execute/inverse` over the Node machine | induction on the node list and the chunks | proved.  |
| C16 | Flow.train trains every node on data processed by its finished predecessors | `Flow.train`, `_train_node`, `CheckpointFlow.train` over the Node machine, ghost trace | induction over nodes and phases, refinement to a specification of the trace | partial. False in one respect: a trainable node followed only by non-trainable ones (and not last) is left in its last phase (violation proved). Everything else is proved, and all nodes are finished if the last node is trainable. |
| C17 | CheckpointFlow runs each checkpoint once, at the right moment | `Flow.train`, `_train_node`, `CheckpointFlow.train` over the Node machine, ghost trace | induction over nodes and phases, refinement to a specification of the trace | proved.  |
| C18 | Bad training arguments are rejected before any node is touched | `Flow.train`, `_train_node`, `CheckpointFlow.train` over the Node machine, ghost trace | induction over nodes and phases, refinement to a specification of the trace | proved.  |
| C19 | Training a FlowNode equals training its flow | `FlowNode` as a node class whose private data is a flow | simulation between phases of the node and of the flow | proved. Same state up to two differences of the code, stated in the theorem: Flow.train may leave the last phase of the last trainable node open (C16), and dtypes must agree (they do when set from the start). |
| C20 | Layer executes its nodes side by side | `Layer`, `CloneLayer`, `SameInputLayer` as node classes | induction over the inner nodes | proved. For inner classes whose execute hook changes nothing and returns the declared shape. |
| C21 | Layer.inverse undoes Layer.execute | `Layer`, `CloneLayer`, `SameInputLayer` as node classes | induction over the inner nodes | proved.  |
| C22 | CloneLayer executes like a Layer of identical nodes | `Layer`, `CloneLayer`, `SameInputLayer` as node classes | induction over the inner nodes | proved. clone_zero_width: with a node without columns the CloneLayer raises, the Layer does not. |
| C23 | Layer training closes each inner node after its own number of phases | `Layer`, `CloneLayer`, `SameInputLayer` as node classes | induction over the inner nodes | proved. layer_phases_desync: if training calls raise and the user carries on, inner nodes can get ahead of the layer. |
| C24 | Switchboard routes exactly the declared connections | switchboards as integer lists; nested loops | list/permutation lemmas; counting by `Nodup` and membership; rhomb fields are taxicab balls | partial. Negative indices are never rejected, not even those below -input_dim (violation proved). Everything else is proved; routing is proved for negative indices too. |
| C25 | Switchboard inverse is a true two-sided inverse | switchboards as integer lists; nested loops | list/permutation lemmas; counting by `Nodup` and membership; rhomb fields are taxicab balls | partial. False for connection lists with a negative index (violation proved), proved for all others. |
| C26 | MeanInverseSwitchboard averages duplicates and zeroes unused inputs | switchboards as integer lists; nested loops | list/permutation lemmas; counting by `Nodup` and membership; rhomb fields are taxicab balls | proved. Floats idealised as a field. A negative connection makes the inverse raise. |
| C27 | Rectangular switchboards cover the image with in-range fields | switchboards as integer lists; nested loops | list/permutation lemmas; counting by `Nodup` and membership; rhomb fields are taxicab balls | partial. Coverage is false when the spacing is larger than the field (violation proved); the exact condition is proved. Sizes are natural numbers. |
| C28 | Coordinate translation round-trips | switchboards as integer lists; nested loops | list/permutation lemmas; counting by `Nodup` and membership; rhomb fields are taxicab balls | proved.  |
| C29 | topological_sort returns every node once, ancestors first | `mdp.graph.Graph` with identities | loop invariants of Kahn's algorithm and of the dfs/bfs worklists, termination by measures; histories by induction | proved.  |
| C30 | topological_sort raises exactly on cyclic graphs | `mdp.graph.Graph` with identities | loop invariants of Kahn's algorithm and of the dfs/bfs worklists, termination by measures; histories by induction | proved.  |
| C31 | dfs and bfs visit exactly the reachable nodes, once each, and terminate | `mdp.graph.Graph` with identities | loop invariants of Kahn's algorithm and of the dfs/bfs worklists, termination by measures; histories by induction | proved.  |
| C32 | connected_components partitions the nodes | `mdp.graph.Graph` with identities | loop invariants of Kahn's algorithm and of the dfs/bfs worklists, termination by measures; histories by induction | proved. is_weakly_connected raises IndexError on the empty graph |
| C33 | Graph edge bookkeeping stays consistent | `mdp.graph.Graph` with identities | loop invariants of Kahn's algorithm and of the dfs/bfs worklists, termination by measures; histories by induction | partial. The consistency invariant holds for every history. remove_node removing exactly the node and its edges is false for nodes with a self-loop (remove_node_self_loop proves the violation); proved for all other nodes. |
| C34 | add_tree builds the described tree | `mdp.graph.Graph` with identities | loop invariants of Kahn's algorithm and of the dfs/bfs worklists, termination by measures; histories by induction | proved.  |
| C35 | Activating and deactivating an extension restores the classes | extension registry: class dictionaries as maps (attribute, saved original, marker) | round trip and overlay invariants over histories | partial. False in general: four kinds of violation are proved. Proved under explicit conditions on the extension and the classes (Fits), also for arbitrary non-nested histories of several extensions. |
| C36 | Extension activation is idempotent and the active set is exact | extension registry: class dictionaries as maps (attribute, saved original, marker) | round trip and overlay invariants over histories | partial. Idempotence and the set of active extensions are proved for all histories (teardown functions must not raise; a violation is proved otherwise). That active extensions are in force is proved for histories without exceptions and is false after a collision. |
| C37 | A failed activation leaves no trace | extension registry: class dictionaries as maps (attribute, saved original, marker) | round trip and overlay invariants over histories | partial. The set of active extensions and all attributes not declared by the failing extension are as before; every collision damages another active extension (proved for all collisions). |
| C38 | The extension context manager restores the previous active set | extension registry: class dictionaries as maps (attribute, saved original, marker) | round trip and overlay invariants over histories | partial. Proved for the decorator in all cases, and for the with statement unless its activation fails, in which case all extensions are deactivated (violation proved). |
| C39 | Results come back in task order for any completion order | schedulers as a transition system over all interleavings of client, task and worker threads | invariants over reachable states; witnesses are executions | proved.  |
| C40 | Open-task accounting is exact, so get_results waits for exactly the pending tasks | schedulers as a transition system over all interleavings of client, task and worker threads | invariants over reachable states; witnesses are executions | proved.  |
| C41 | Every task runs with the callable it was submitted with | schedulers as a transition system over all interleavings of client, task and worker threads | invariants over reachable states; witnesses are executions | partial. False for the caching process scheduler (a race, violation proved). Proved for the base and thread schedulers and without caching, and with caching when the callable is set or changed only while no task is open. |
| C42 | ThreadScheduler runs at most n_threads tasks at a time | schedulers as a transition system over all interleavings of client, task and worker threads | invariants over reachable states; witnesses are executions | partial. False: for every n_threads any number of tasks can run at once (proved for all numbers). Nothing of the claim holds for ThreadScheduler; see C75 for ProcessScheduler. |
| C43 | A rejected or failing scheduler call does not block later calls | schedulers as a transition system over all interleavings of client, task and worker threads | invariants over reachable states; witnesses are executions | partial. False: after a raising call no call ever proceeds (proved for every such execution); proved that the lock holder can always go on while no call has raised. |
| C44 | Training in parallel equals training sequentially | statistics gathered by PCA, SFA, FDA, histogram and classifier nodes, sequentially and forked/joined | algebra over lists of rows; permutation of joins | proved. Every fork must have been trained on at least one chunk (pca_untrained_fork: joining an untrained one raises). The sample lists of the KNN classifier are equal for joins in task order. |
| C45 | The covariance accumulator is independent of chunking and computes the textbook covariance | covariance accumulators over a field | algebra over lists of rows | proved. Floats idealised as a field of characteristic 0. |
| C46 | The delay covariance pairs x(t) with x(t+dt) inside chunks only | covariance accumulators over a field | algebra over lists of rows | proved. Floats idealised as a field. |
| C47 | The time-weighted covariance does not depend on the chunking | covariance accumulators over a field | algebra over lists of rows | partial. False for chunks of one row, for re-use after fix, and for separate chunks with a full list of time steps (violations proved); proved for all others. Floats idealised as an ordered field with square roots. |
| C48 | Caching does not change results | caching extension; joblib as a table | invariant "table contents are results"; instantiated with the Node machine | partial. False in general: a cache hit skips what the first execute of a node does to the node (violation proved). Proved for nodes whose execute no longer changes them (all histories of activations, caches on disk, instances), and instantiated with the Node model. Hashes are assumed free of collisions. |
| C49 | Instance and class cache switches compose | caching extension; joblib as a table | invariant "table contents are results"; instantiated with the Node machine | partial. False in three respects (subclasses of a cached class, switching an instance on twice, re-activation), each proved; the exact set of cached nodes is proved for all histories. |
| C50 | comb computes the binomial coefficient exactly | `comb`, `nmonomials`, polynomial expansion | induction; multisets of exponents | proved.  |
| C51 | PolynomialExpansionNode outputs every monomial exactly once | `comb`, `nmonomials`, polynomial expansion | induction; multisets of exponents | proved. Floats idealised as a commutative ring. |
| C52 | TimeFramesNode output contains the delayed copies and pseudo_inverse recovers the signal | time frame / delay / sliding window nodes on blocks | index arithmetic on lists | proved.  |
| C53 | TimeDelayNode and its sliding-window variant agree | time frame / delay / sliding window nodes on blocks | index arithmetic on lists | partial. False for signals shorter than the delay by less than half: TimeDelayNode raises (exact condition proved). Otherwise proved. |
| C54 | HitParade keeps true, separated extremes including the global maximum | `OneDimensionalHitParade` | loop invariant over samples | proved. For values within the finite range of the dtype (infinity is not recorded: infinite_not_recorded) and at least one hit. |
| C55 | Cutoff nodes clip into the bounds and nothing else | cutoff nodes, histogram | list lemmas, counting | proved. Fractions idealised as rationals. A lower fraction of 1 raises (adaptive_stops). |
| C56 | SimpleMarkovClassifier returns a probability distribution equal to the observed frequencies | Markov classifier, `rank`, `weighted_choice` | counting over histories of labels | proved. Floats idealised as rationals. |
| C57 | NearestMean and KNN classifiers return a label that truly is nearest | nearest mean and k-nearest-neighbour classifiers | order lemmas | proved. Every label must have at least one row (otherwise its mean is nan). For KNN any k >= 1 and any order of equal distances. |
| C58 | Hopfield recall terminates in a fixed point | Hopfield classifier | energy function | proved. Floats idealised as an ordered field. |
| C59 | A BiFlow without jumps is a Flow | `BiFlow.execute`: unbounded loop as step function; result containers | equivalence with a relational specification of paths; induction over chunks | proved.  |
| C60 | BiFlow jumps stay inside the flow | `BiFlow.execute`: unbounded loop as step function; result containers | equivalence with a relational specification of paths; induction over chunks | partial. False for a relative index that points before the position -1: control goes to a node counted from the end (violation proved). Proved if no node asks for that. |
| C61 | Message parts not consumed by a node are passed on and node results take priority | `BiNode` with messages as dictionaries with string keys | dictionary lemmas; invariant over training histories | proved.  |
| C62 | BiFlow accepts chunks that all produce no array | `BiFlow.execute`: unbounded loop as step function; result containers | equivalence with a relational specification of paths; induction over chunks | partial. False: two chunks without data raise the error too, one gives False (violations proved). Proved that it is raised if some but not all have data. |
| C63 | OnlineNode trains on every sample in every phase order and never closes by itself | `OnlineNode` | invariant over call histories with ghost trace | partial. Everything is proved except that phases are closed exactly once if a stop hook raises: after a retry earlier stop hooks run again (violation proved). |
| C64 | OnlineFlow trains node i on the current output of its predecessors | `OnlineFlow` | induction over chunks and nodes; invariants over container histories | proved.  |
| C65 | CircularOnlineFlow input/output node selection rotates the ring | `CircularOnlineFlow` | rotation lemmas; step functions of loops that never return | partial. False for an index equal to the number of nodes, which is accepted (violation proved); otherwise proved, also for all histories. |
| C66 | Channels of a ChannelSwitchboard | switchboards as integer lists; nested loops | list/permutation lemmas; counting by `Nodup` and membership; rhomb fields are taxicab balls | proved.  |
| C67 | DoubleRect2dSwitchboard covers the border once and the inside twice | switchboards as integer lists; nested loops | list/permutation lemmas; counting by `Nodup` and membership; rhomb fields are taxicab balls | proved.  |
| C68 | DoubleRhomb2dSwitchboard fields are rotated squares that cover inner points twice | switchboards as integer lists; nested loops | list/permutation lemmas; counting by `Nodup` and membership; rhomb fields are taxicab balls | proved.  |
| C69 | Private data of a node is determined by its hook calls | `mdp.Node` as a state machine over `train/stop_training/execute/inverse/set_*`; hooks are arbitrary functions | invariant by induction on the call history, with a ghost trace of hook calls | proved.  |
| C70 | Training a CloneLayer trains its one node on all blocks | `Layer`, `CloneLayer`, `SameInputLayer` as node classes | induction over the inner nodes | proved.  |
| C71 | SameInputLayer concatenates what its nodes give for the whole input | `Layer`, `CloneLayer`, `SameInputLayer` as node classes | induction over the inner nodes | proved. For inner classes whose execute hook changes nothing and returns the declared shape. |
| C72 | Training a SameInputLayer trains every node on the whole chunks | `Layer`, `CloneLayer`, `SameInputLayer` as node classes | induction over the inner nodes | proved. For a layer whose dtype is given. |
| C73 | A FlowNode knows its dimensions after training | `FlowNode` as a node class whose private data is a flow | simulation between phases of the node and of the flow | proved.  |
| C74 | The list result container returns every result once | schedulers as a transition system over all interleavings of client, task and worker threads | invariants over reachable states; witnesses are executions | proved.  |
| C75 | A process scheduler never runs more than n_processes tasks at once | schedulers as a transition system over all interleavings of client, task and worker threads | invariants over reachable states; witnesses are executions | proved.  |
| C76 | A scheduler can be shut down once get_results has returned | schedulers as a transition system over all interleavings of client, task and worker threads | invariants over reachable states; witnesses are executions | partial. False: a race between storing the result and giving back the process (violation proved). |
| C77 | CrossCovarianceMatrix computes the sample cross-covariance | covariance accumulators over a field | algebra over lists of rows | proved.  |
| C78 | MultipleCovarianceMatrices operations are congruences | covariance accumulators over a field | algebra over lists of rows | proved.  |
| C79 | SFANode trained on overlapping chunks equals training on the whole signal | statistics gathered by PCA, SFA, FDA, histogram and classifier nodes, sequentially and forked/joined | algebra over lists of rows; permutation of joins | proved.  |
| C80 | FDANode computes within-class scatter and total covariance | statistics gathered by PCA, SFA, FDA, histogram and classifier nodes, sequentially and forked/joined | algebra over lists of rows; permutation of joins | proved.  |
| C81 | A single label counts for all rows | Markov classifier, `rank`, `weighted_choice` | counting over histories of labels | partial. False for a string: it is taken apart into its characters (violation proved). |
| C82 | rank lists the labels by decreasing probability | Markov classifier, `rank`, `weighted_choice` | counting over histories of labels | proved.  |
| C83 | weighted_choice draws keys in proportion to their weights | Markov classifier, `rank`, `weighted_choice` | counting over histories of labels | proved. Floats idealised as rationals. |
| C84 | Perceptron training converges on separable data | perceptron | Novikoff argument | proved. Floats idealised as an archimedean ordered field. |
| C85 | KMeans training converges and labels are nearest centroids | k-means | potential function, finiteness of labellings | partial. Proved if max_iter allows k^n+1 rounds. False if max_iter is reached first: there are no centroids then (violation proved). |
| C86 | GaussianClassifier computes Bayes posteriors | Gaussian classifier | algebra over the reals | proved. Over the reals, determinant and inverse are parameters; each label given to at least two rows. |
| C87 | OnlineFlow.train leaves its online nodes open | `OnlineFlow` | induction over chunks and nodes; invariants over container histories | partial. False for an online node with several phases at the end of the flow (violation proved); proved otherwise. |
| C88 | A terminal ordinary node of an OnlineFlow is trained on all the data | `OnlineFlow` | induction over chunks and nodes; invariants over container histories | partial. False: the node is closed after the first chunk, for all flows and data (proved). |
| C89 | OnlineFlow container operations keep the flow valid | `OnlineFlow` | induction over chunks and nodes; invariants over container histories | partial. False for += (violation proved); proved for all histories of the other calls. Dimensions are proved consistent for histories without training. |
| C90 | CircularOnlineFlow.train circulates each chunk the given number of times | `CircularOnlineFlow` | rotation lemmas; step functions of loops that never return | proved. For at least one flow iteration and a ring with nodes. |
| C91 | CircularOnlineFlow container operations are all or nothing and keep the output node | `CircularOnlineFlow` | rotation lemmas; step functions of loops that never return | partial. False for item assignment, deletion and insertion before the output node (violations proved); proved for append, extend and insertion at or behind the output node. |
| C92 | CircularOnlineFlow stores the given input and executes from input to output node | `CircularOnlineFlow` | rotation lemmas; step functions of loops that never return | partial. False if the input dimension is not known, and for inverse (violations proved); proved for execute and for a known input dimension. |
| C93 | BiNode calls do not change the caller's message | `BiNode` with messages as dictionaries with string keys | dictionary lemmas; invariant over training histories | partial. False: entries addressed to the node are removed from the dictionary of the caller (violation proved). Proved for messages without such entries and methods without an own message. |
| C94 | BiNode training phases advance only with returned stop_training calls | `BiNode` with messages as dictionaries with string keys | dictionary lemmas; invariant over training histories | proved.  |
| C95 | Chunks of a BiFlow execution do not influence one another | `BiFlow.execute`: unbounded loop as step function; result containers | equivalence with a relational specification of paths; induction over chunks | proved.  |
| C96 | Messages of several chunks are joined by key | `BiFlow.execute`: unbounded loop as step function; result containers | equivalence with a relational specification of paths; induction over chunks | proved. The message can be asked for only once (get_message_twice); BiFlow.execute does so. |
| C97 | BiFlow.train trains in order and completes the training | `BiFlow.train`, `BiCheckpointFlow.train` | invariants in Hoare style; refinement to a specification | proved. Messages are values here: that nodes change the message objects (C93) is not part of this model. |
| C98 | A BiFlow without jumps is trained like a Flow | `BiFlow.train`, `BiCheckpointFlow.train` | invariants in Hoare style; refinement to a specification | proved.  |
| C99 | BiCheckpointFlow calls each checkpoint after its node and otherwise trains like a BiFlow | `BiFlow.train`, `BiCheckpointFlow.train` | invariants in Hoare style; refinement to a specification | partial. False for a checkpoint function that returns nothing: TypeError (violation proved). Proved for those that return a dictionary. |
| C100 | Training a flow on schedulers gives what training in one process gives | `ParallelFlow.train`, `ParallelCheckpointFlow`: step function of phases, schedulers that finish tasks in any order; ghost logs of tasks, schedulers used and shut down | refinement to sequential training as a relation, up to an equivalence of node states; invariant for failing trainings | proved. For nodes whose forks and joins work (hypothesis ForkJoin; shown for PCA nodes, for the others see C44) and checkpoint functions that leave the node alone. |
| C101 | Every chunk becomes exactly one task of its phase | `ParallelFlow.train`, `ParallelCheckpointFlow`: step function of phases, schedulers that finish tasks in any order; ghost logs of tasks, schedulers used and shut down | refinement to sequential training as a relation, up to an equivalence of node states; invariant for failing trainings | proved.  |
| C102 | A failed parallel training does not spoil the flow | `ParallelFlow.train`, `ParallelCheckpointFlow`: step function of phases, schedulers that finish tasks in any order; ghost logs of tasks, schedulers used and shut down | refinement to sequential training as a relation, up to an equivalence of node states; invariant for failing trainings | partial. False: after any failing training on a scheduler every call of train and execute raises (violation proved for all failures). |
| C103 | Parallel execution gives the result of sequential execution | `ParallelFlow.execute` with forks and the result container | sorting by task index; induction over histories of executions | partial. False in two respects: nodenr is ignored, and on a scheduler that is used again the forks of earlier executions are joined once more (violations proved). Order, completeness and errors are proved for executions of the whole flow. |
| C104 | ParallelCheckpointFlow calls the checkpoints | `ParallelFlow.train`, `ParallelCheckpointFlow`: step function of phases, schedulers that finish tasks in any order; ghost logs of tasks, schedulers used and shut down | refinement to sequential training as a relation, up to an equivalence of node states; invariant for failing trainings | partial. False for nodes that are trained already and for a call without a scheduler (violations proved); proved for the nodes trained in the call. |
| C105 | Schedulers given per node are used for their node and shut down once | `ParallelFlow.train`, `ParallelCheckpointFlow`: step function of phases, schedulers that finish tasks in any order; ghost logs of tasks, schedulers used and shut down | refinement to sequential training as a relation, up to an equivalence of node states; invariant for failing trainings | partial. False if no phase can be done on a scheduler: TypeError after the work has been done (violation proved). Proved otherwise. |
| C106 | Linear regression minimises the squared error over all training data | `LinearRegressionNode`: accumulated moment matrices, inversion as a parameter | normal equations; Pythagoras for the squared error | proved. Floats idealised as an ordered field; the inversion routine is a parameter that returns a generalised inverse of the matrix it is given. |
| C107 | OnlineCenteringNode subtracts the average of what it has seen | `OnlineCenteringNode`, `OnlineTimeDiffNode` | induction over chunks and rows | partial. False after a single sample: execute returns its input (violation proved). Proved for two or more samples. |
| C108 | OnlineTimeDiffNode gives differences of consecutive samples | `OnlineCenteringNode`, `OnlineTimeDiffNode` | induction over chunks and rows | partial. False for batch training (violations proved). Proved for incremental training. |
| C109 | PCA outputs are uncorrelated and capture as much variance as possible | `PCANode`, `WhiteningNode` on top of `CovarianceMatrix`; eigenvalue solver and square root as parameters | algebra of sample covariances, Parseval and Bessel, Ky Fan inequality; filters of sorted lists are prefixes | proved. Floats idealised as an ordered field; the eigenvalue solver is a parameter, required only to be right for the covariance matrix of the data. |
| C110 | PCANode keeps the number of components asked for | `PCANode`, `WhiteningNode` on top of `CovarianceMatrix`; eigenvalue solver and square root as parameters | algebra of sample covariances, Parseval and Bessel, Ky Fan inequality; filters of sorted lists are prefixes | partial. Floats idealised as an ordered field; the eigenvalue solver is a parameter, required only to be right for the covariance matrix of the data. With inexact eigenvalues the output dimension can be one too large (pca_rounding). False for data without variance and a fraction: the output dimension is one, but there is no eigenvalue. |
| C111 | PCA reconstruction | `PCANode`, `WhiteningNode` on top of `CovarianceMatrix`; eigenvalue solver and square root as parameters | algebra of sample covariances, Parseval and Bessel, Ky Fan inequality; filters of sorted lists are prefixes | proved. Floats idealised as an ordered field; the eigenvalue solver is a parameter, required only to be right for the covariance matrix of the data. |
| C112 | Whitened outputs have unit covariance | `PCANode`, `WhiteningNode` on top of `CovarianceMatrix`; eigenvalue solver and square root as parameters | algebra of sample covariances, Parseval and Bessel, Ky Fan inequality; filters of sorted lists are prefixes | partial. Floats idealised as an ordered field; the eigenvalue solver is a parameter, required only to be right for the covariance matrix of the data. False for data in a hyperplane if all components are kept: a variance is zero and the node divides by its root without raising (violation proved). Proved for positive variances. |
| C113 | SFA outputs are decorrelated and ordered by slowness | `SFANode`: statistics of C44, solver of the generalised eigenvalue problem and pseudo-inverse as parameters | coordinates with respect to eigenvectors orthonormal for the covariance; Ky Fan inequality; case analysis of the states left by failures | proved. Floats idealised as an ordered field; the solver of the generalised eigenvalue problem is a parameter, required only to be right for the two matrices of the data. |
| C114 | SFA outputs are the slowest linear features | `SFANode`: statistics of C44, solver of the generalised eigenvalue problem and pseudo-inverse as parameters | coordinates with respect to eigenvectors orthonormal for the covariance; Ky Fan inequality; case analysis of the states left by failures | proved. Floats idealised as an ordered field; the solver of the generalised eigenvalue problem is a parameter, required only to be right for the two matrices of the data. |
| C115 | SFA training can be completed after a failure of the solver | `SFANode`: statistics of C44, solver of the generalised eigenvalue problem and pseudo-inverse as parameters | coordinates with respect to eigenvectors orthonormal for the covariance; Ky Fan inequality; case analysis of the states left by failures | proved. Solvers that overwrite the matrices they are given (the code allows them to) are covered by C347. |
| C116 | SFA inverse | `SFANode`: statistics of C44, solver of the generalised eigenvalue problem and pseudo-inverse as parameters | coordinates with respect to eigenvectors orthonormal for the covariance; Ky Fan inequality; case analysis of the states left by failures | proved. Floats idealised as an ordered field; the solver of the generalised eigenvalue problem is a parameter, required only to be right for the two matrices of the data. Of the pseudo-inverse G of W only W G W = W is used. |
| C117 | The quadratic form of an SFA2Node output is that output | `SFA2Node` on top of the model of the polynomial expansion; loops of `get_quadratic_form` with the matrix and the running index | loop invariant over the index pairs, which are listed in the order of the monomials; reduction to SFA on the expanded samples | proved. The test for symmetry in QuadraticForm is taken to be exact. |
| C118 | SFA2 outputs are the slowest quadratic features | `SFA2Node` on top of the model of the polynomial expansion; loops of `get_quadratic_form` with the matrix and the running index | loop invariant over the index pairs, which are listed in the order of the monomials; reduction to SFA on the expanded samples | proved. Floats idealised as an ordered field; the solver of the generalised eigenvalue problem is a parameter, required only to be right for the two matrices of the data. |
| C119 | An SFA2Node has output_dim outputs | `SFA2Node` on top of the model of the polynomial expansion; loops of `get_quadratic_form` with the matrix and the running index | loop invariant over the index pairs, which are listed in the order of the monomials; reduction to SFA on the expanded samples | partial. False for an output_dim above the number of monomials: the node gives fewer outputs (violation proved for all such cases); otherwise part of sfa2_outputs. |
| C120 | get_extrema returns optimal vectors | `QuadraticForm.get_extrema`, `_maximize`: the bisection as a loop with fuel | loop invariant (bracket of the multiplier); Lagrange multiplier above the spectrum is sufficient for a maximum; halving of the bracket for termination | proved. extrema_optimal is the optimality if the linear part is zero or has an entry of at least the machine precision, extrema_small the other case. The routines for eigenvectors, linear systems and norms are parameters; the eigenvectors must be orthonormal and the solver must refuse singular matrices. Numbers of an ordered (for the end of the search Archimedean) field. |
| C121 | get_extrema returns vectors of the length asked for | `QuadraticForm.get_extrema`, `_maximize`: the bisection as a loop with fuel | loop invariant (bracket of the multiplier); Lagrange multiplier above the spectrum is sufficient for a maximum; halving of the bracket for termination | partial. False: the vector is shorter and not optimal if the linear part is orthogonal to the leading eigenvector; singular matrices raise; lengths whose square does not exceed the tolerance raise UnboundLocalError (violations proved). What holds of the length is part of extrema_optimal. |
| C122 | SFA on data of any rank with a rank deficit method | `_symeig_fake`, `_find_blank_data_idx`, `symeig_semidefinite_pca`, `symeig_semidefinite_svd` and `SFANode` with them; `eigh`, `svd` and the root as parameters | whitening as a change of coordinates; null vectors of semidefinite forms; filters and prefixes of sorted lists; embedding of the reduced problem | proved. Floats idealised as an ordered field; eigh, svd and the square root are parameters that are exact where they return. A single varying input together with constant ones is not of the kind the property covers (see C124): the solver raises IndexError there (pca_constant_variable_false). |
| C123 | An SFANode with a rank deficit method has output_dim outputs | `_symeig_fake`, `_find_blank_data_idx`, `symeig_semidefinite_pca`, `symeig_semidefinite_svd` and `SFANode` with them; `eigh`, `svd` and the root as parameters | whitening as a change of coordinates; null vectors of semidefinite forms; filters and prefixes of sorted lists; embedding of the reduced problem | partial. False if the rank is below the output dimension (violation proved for all such cases): there are as many outputs as the rank. Otherwise part of sfa_rank_outputs. |
| C124 | Rank deficit methods leave out constant inputs only | `_symeig_fake`, `_find_blank_data_idx`, `symeig_semidefinite_pca`, `symeig_semidefinite_svd` and `SFANode` with them; `eigh`, `svd` and the root as parameters | whitening as a change of coordinates; null vectors of semidefinite forms; filters and prefixes of sorted lists; embedding of the reduced problem | partial. False: if the first input varies but is uncorrelated with some other input, constant or not, the first input is left out, and the outputs do not depend on it (violation proved for all such data). Constant inputs are always left out; the test is right if the first input is constant or correlated with all others. |
| C125 | symeig solves the generalised eigenvalue problem | `_symeig_fake`, `_find_blank_data_idx`, `symeig_semidefinite_pca`, `symeig_semidefinite_svd` and `SFANode` with them; `eigh`, `svd` and the root as parameters | whitening as a change of coordinates; null vectors of semidefinite forms; filters and prefixes of sorted lists; embedding of the reduced problem | proved. Floats idealised as an ordered field; eigh, svd and the square root are parameters that are exact where they return. |
| C126 | rank_deficit tells the number of redundant inputs | `_symeig_fake`, `_find_blank_data_idx`, `symeig_semidefinite_pca`, `symeig_semidefinite_svd` and `SFANode` with them; `eigh`, `svd` and the root as parameters | whitening as a change of coordinates; null vectors of semidefinite forms; filters and prefixes of sorted lists; embedding of the reduced problem | partial. False for svd after an earlier attempt: without a deficit the old value remains (violation proved). Proved for pca, and for svd when the attribute was zero. |
| C127 | Recursive expansions compute every product exactly once | `RecursiveExpansionNode._execute`: the array of a row with the running position, the list of blocks as a queue (`while` with unbounded fuel), the four families | a second loop on exponent vectors which the loop on values follows; invariant: written and pending products are a permutation of all; weights for termination; polynomials of Mathlib (Bonnet recursion proved from the coefficients) | partial. Floats idealised as a field; functions supplied by the user are not modelled. Proved for degrees of at least two, and for degree one except for the rational functions. False for legendre_rational with degree one, which returns the variables themselves, and for degree zero, which returns as many ones as variables, or None (violations proved for all rows in the domain). |
| C128 | A RecursiveExpansionNode has output_dim outputs | `RecursiveExpansionNode._execute`: the array of a row with the running position, the list of blocks as a queue (`while` with unbounded fuel), the four families | a second loop on exponent vectors which the loop on values follows; invariant: written and pending products are a permutation of all; weights for termination; polynomials of Mathlib (Bonnet recursion proved from the coefficients) | partial. Floats idealised as a field; functions supplied by the user are not modelled. Proved for degrees of at least one; false for degree zero (violation proved). |
| C129 | The domain check of recursive expansions | `check_domain`, `NormalizingRecursiveExpansionNode` with the aliasing of the argument | greatest and least elements under concatenation; affine maps | proved. Floats idealised as an ordered field; no nan. |
| C130 | The extrema collected by a NormalizingRecursiveExpansionNode do not depend on the chunks | `check_domain`, `NormalizingRecursiveExpansionNode` with the aliasing of the argument | greatest and least elements under concatenation; affine maps | proved. Floats idealised as an ordered field; no nan. |
| C131 | A NormalizingRecursiveExpansionNode maps the data into the domain | `check_domain`, `NormalizingRecursiveExpansionNode` with the aliasing of the argument | greatest and least elements under concatenation; affine maps | proved. Floats idealised as an ordered field; no nan. A domain of positive length. |
| C132 | execute of a NormalizingRecursiveExpansionNode leaves its argument alone | `check_domain`, `NormalizingRecursiveExpansionNode` with the aliasing of the argument | greatest and least elements under concatenation; affine maps | partial. False: the normalisation works in place on the array of the caller if it has the dtype of the node (violation proved for all data reaching below a domain bounded below). Proved for other dtypes, unbounded domains and training data strictly inside a bounded domain. |
| C133 | The graph of a growing neural gas stays well-formed | `GrowingNeuralGasNode` on the model of the graph package; positions, errors and ages as tables; `argsort` as a parameter with its specification | invariant over steps (simple graph, distinct identities, ages, every node touched); a convex set as a parameter of the invariant | proved. Floats idealised as an ordered field; argsort and the square root are parameters, argsort with the guarantee of numpy. |
| C134 | A growing neural gas stays within the data | `GrowingNeuralGasNode` on the model of the graph package; positions, errors and ages as tables; `argsort` as a parameter with its specification | invariant over steps (simple graph, distinct identities, ages, every node touched); a convex set as a parameter of the invariant | proved. Floats idealised as an ordered field; argsort and the square root are parameters, argsort with the guarantee of numpy. |
| C135 | The effect of a data point on a growing neural gas | `GrowingNeuralGasNode` on the model of the graph package; positions, errors and ages as tables; `argsort` as a parameter with its specification | invariant over steps (simple graph, distinct identities, ages, every node touched); a convex set as a parameter of the invariant | proved. Floats idealised as an ordered field; argsort and the square root are parameters, argsort with the guarantee of numpy. gng_step describes the points at which no node is inserted. |
| C136 | nearest_neighbor returns the nearest node | `GrowingNeuralGasNode` on the model of the graph package; positions, errors and ages as tables; `argsort` as a parameter with its specification | invariant over steps (simple graph, distinct identities, ages, every node touched); a convex set as a parameter of the invariant | proved. Floats idealised as an ordered field; argsort and the square root are parameters, argsort with the guarantee of numpy. |
| C137 | Training a neural gas does not change the arrays given as start_poss | `GrowingNeuralGasNode` on the model of the graph package; positions, errors and ages as tables; `argsort` as a parameter with its specification | invariant over steps (simple graph, distinct identities, ages, every node touched); a convex set as a parameter of the invariant | partial. Floats idealised as an ordered field; argsort and the square root are parameters, argsort with the guarantee of numpy. False: arrays of the dtype of the node become the positions of the nodes and are moved in place (violation proved for all starts and points). Arrays of another dtype are copied. |
| C138 | Training of a neural gas | `NeuralGasNode`; the loop over the list it removes from by position; schedule over the reals | invariant: ages of edges are pairwise distinct, so at most one edge is too old; monotonicity of powers; kernel computation for the violation | proved. Floats idealised as an ordered field; argsort and the square root are parameters, argsort with the guarantee of numpy. The schedule is over the real numbers. |
| C139 | No edge of a neural gas is older than the maximal age | `NeuralGasNode`; the loop over the list it removes from by position; schedule over the reals | invariant: ages of edges are pairwise distinct, so at most one edge is too old; monotonicity of powers; kernel computation for the violation | partial. Floats idealised as an ordered field; argsort and the square root are parameters, argsort with the guarantee of numpy. Proved when the maximal age does not decrease (as with the defaults). False otherwise: the loop removes from the list it runs over and skips an edge (violation proved). |
| C140 | A CloneBiLayer runs its nodes side by side | `CloneBiLayer` with the splitting and joining of messages, object identity of arrays as a token, the `use_copies` flag; `BiSwitchboard` on the model of `Switchboard` | calls of the nodes as a list of inputs and results; induction over the nodes and the dictionary; permutation of columns | partial. Entries of messages other than None, numbers, strings and arrays are opaque; arrays are lists of columns. Proved for data whose number of columns is a positive multiple of the number of nodes; otherwise the columns beyond the last full block are dropped without an error (violation proved for all such arrays). |
| C141 | Messages pass through a CloneBiLayer | `CloneBiLayer` with the splitting and joining of messages, object identity of arrays as a token, the `use_copies` flag; `BiSwitchboard` on the model of `Switchboard` | calls of the nodes as a list of inputs and results; induction over the nodes and the dictionary; permutation of columns | proved. Entries of messages other than None, numbers, strings and arrays are opaque; arrays are lists of columns. outgoing_message is about runs in which at least two nodes give messages. |
| C142 | use_copies of a CloneBiLayer does not change what is computed | `CloneBiLayer` with the splitting and joining of messages, object identity of arrays as a token, the `use_copies` flag; `BiSwitchboard` on the model of `Switchboard` | calls of the nodes as a list of inputs and results; induction over the nodes and the dictionary; permutation of columns | partial. Entries of messages other than None, numbers, strings and arrays are opaque; arrays are lists of columns. False for the way from copies to a shared node, which always raises: the attribute is_bi_training does not exist (violation proved for all layers). |
| C143 | Messages switch a CloneBiLayer to copies | `CloneBiLayer` with the splitting and joining of messages, object identity of arrays as a token, the `use_copies` flag; `BiSwitchboard` on the model of `Switchboard` | calls of the nodes as a list of inputs and results; induction over the nodes and the dictionary; permutation of columns | partial. Entries of messages other than None, numbers, strings and arrays are opaque; arrays are lists of columns. False for an incoming entry addressed to the layer, which is dropped (violation proved for all messages). |
| C144 | A BiSwitchboard routes data and messages alike | `CloneBiLayer` with the splitting and joining of messages, object identity of arrays as a token, the `use_copies` flag; `BiSwitchboard` on the model of `Switchboard` | calls of the nodes as a list of inputs and results; induction over the nodes and the dictionary; permutation of columns | partial. Entries of messages other than None, numbers, strings and arrays are opaque; arrays are lists of columns. Execution is proved for all connections that numpy accepts. The inverse is proved for connections that are not negative and false for negative ones, which is_invertible accepts. |
| C145 | A BiFlowNode executes like its flow | `BiFlowNode`: the inner flow with loops of unbounded fuel, the remembered request | the paths of `BiFlow` executions; simulation of the training loop of the flow | partial. Proved for messages without entries addressed to the flow node and inner targets not below -1. False for method inverse addressed to the flow node, and for a flow node with one inner node, where a request remains (violations proved for all inner flows). |
| C146 | A BiFlowNode trains like its flow | `BiFlowNode`: the inner flow with loops of unbounded fuel, the remembered request | the paths of `BiFlow` executions; simulation of the training loop of the flow | partial. Training is compared for runs of the flow without exceptions. False for a fully trained flow node with a trainable last node (IndexError), and for a training result of the last inner node without a target (BiFlowException); violations proved for all inner flows. |
| C147 | Coroutine methods of a BiNode continue where they stopped | `binode_coroutine`, `_coroutine_interface`, `_coroutine_initialization`, `bi_reset`; a body is given by its steps | invariant over histories: the suspended body is what a replay of the calls since its start gives | partial. Bodies that call their own method and the effects of bodies on the node are not modelled. Proved for bodies that raise no exceptions. False after an exception: the next call gives None without running the body. A returned value comes back as a one-tuple (violations proved for all bodies). |
| C148 | Hierarchical networks can be trained in parallel | `parallelhinet.py`: layers, flow nodes and clone layers as constructions on nodes given by their methods; networks as trees | a law "fork, train, join = train" for descendants of the forked state, kept by each construction (induction over the nodes), so by induction over the network | partial. A node is given by its methods on a state; training phases as a flag. False for flows in which a layer with a node with use_execute_fork precedes the node in training: what that node gathers is lost (violation). So layers must not have nodes with use_execute_fork; behind the node in training a flow has no node that is in training and has use_execute_fork. The law is proved for PCANode. |
| C149 | What nodes gather in execution survives parallel execution | `parallelhinet.py`: layers, flow nodes and clone layers as constructions on nodes given by their methods; networks as trees | a law "fork, train, join = train" for descendants of the forked state, kept by each construction (induction over the nodes), so by induction over the network | partial. Proved for flow nodes and clone layers. False for layers: they ask to be forked but join only nodes in training, so what the nodes gathered is dropped (violation proved for all layers). |
| C150 | Copies of a parallel CloneBiLayer are merged without loss | `ParallelCloneBiLayer`: one node or copies; switching, forking, joining | the law of C148 for the nodes; explicit sums for the violation | partial. Proved for copies made before training and for fork and join. False for a node trained before the switch to n copies: what it gathered is counted n times (proved for all PCANode states); and switching back when not in training raises AttributeError. |
| C151 | The gradient of a flow is its Jacobian matrix | `gradient.py`: `_gradient`, `_get_grad` of all nodes that have one, messages of `CloneBiLayer`; numpy assignment to slices with broadcasting | specification by Frechet derivatives (`HasFDerivAt`); chain rule, loop invariants for the quadratic expansion and for layers, induction over the flow | proved. Entries are real numbers; one sample at a time. The flow does not start with a CloneBiLayer of two or more nodes (C152). |
| C152 | A gradient is right or refused, whatever the layers | `gradient.py`: `_gradient`, `_get_grad` of all nodes that have one, messages of `CloneBiLayer`; numpy assignment to slices with broadcasting | specification by Frechet derivatives (`HasFDerivAt`); chain rule, loop invariants for the quadratic expansion and for layers, induction over the flow | partial. True for Layer. False for a CloneBiLayer of two or more nodes at the start of a flow: grad silently has the columns of one node (proved for all such layers); false for a SameInputLayer of nodes with one input: the rows of all nodes but the first are silently zero. With more inputs a SameInputLayer of two nodes always raises. |
| C153 | Incremental training does not depend on the chunks | `OnlineNode.train` as in C63 | rows behind rows (induction); after the first chunk the checks do nothing, an invariant of all calls | proved. The class must not override _check_train_args and must initialise its parameters once, from the number of columns and dtype (Settles). In batch training the claim does not hold (witness), as every chunk is one update. |
| C154 | The nodes of an online layer are trained side by side | `layer_online.py` on top of `layer.py`: hooks of an online node whose private data are the inner nodes | the loop over blocks and nodes is exchanged by composing relations "node by node" (induction over both); results of execution by a loop invariant on the output array | proved. Random number generators are not modelled. A node switched to batch training after the layer was built is trained sample by sample (example). |
| C155 | Executing an online layer executes its nodes | `layer_online.py` on top of `layer.py`: hooks of an online node whose private data are the inner nodes | the loop over blocks and nodes is exchanged by composing relations "node by node" (induction over both); results of execution by a loop invariant on the output array | partial. Proved for layers that have been trained and whose output dimension and dtype are known. False for a layer whose output dimension is not known: executing it before training trains every inner node twice with the data. |
| C156 | A CloneOnlineLayer trains its node with all parts of the data | `layer_online.py` on top of `layer.py`: hooks of an online node whose private data are the inner nodes | the loop over blocks and nodes is exchanged by composing relations "node by node" (induction over both); results of execution by a loop invariant on the output array | proved.  |
| C157 | Every GSFA training mode is its training graph | `gsfa_nodes.py`: the accumulators, all updates (arrays as rows by index, slices, assignments to slices), the loop over modes | a graph is given by node and edge weights; each update is shown to add the sums of its graph (sums over windows, blocks and permutations); explicit witnesses for the violations | proved. Serial and mixed need two or more blocks (C161 for one). The graphs of window and fwindow are in C160. smart_unlabeled2/3, compact_classes and update_graph_old are not modelled. |
| C158 | A graph given as an array is the graph given as a dictionary | `gsfa_nodes.py`: the accumulators, all updates (arrays as rows by index, slices, assignments to slices), the loop over modes | a graph is given by node and edge weights; each update is shown to add the sums of its graph (sums over windows, blocks and permutations); explicit witnesses for the violations | partial. Proved for symmetric arrays whose rows sum up to the node weights. False otherwise: the sum of squared differences is even negative for a symmetric, consistent graph (witness). |
| C159 | Fast versions of the sliding windows give the same result | `gsfa_nodes.py`: the accumulators, all updates (arrays as rows by index, slices, assignments to slices), the loop over modes | a graph is given by node and edge weights; each update is shown to add the sums of its graph (sums over windows, blocks and permutations); explicit witnesses for the violations | partial. Proved for mirrored windows without restriction; for fwindow if there are at least four times as many samples as the width. False for fewer (witness: constant data have differences). |
| C160 | Sliding windows give weighted averages of the data | `gsfa_nodes.py`: the accumulators, all updates (arrays as rows by index, slices, assignments to slices), the loop over modes | a graph is given by node and edge weights; each update is shown to add the sums of its graph (sums over windows, blocks and permutations); explicit witnesses for the violations | partial. The sums are those of the graph, but the number of samples is one too large: the average of constant data is never their value (proved for all constant data). |
| C161 | Modes in a list do what each of them does alone, and wrong arguments are refused | `gsfa_nodes.py`: the accumulators, all updates (arrays as rows by index, slices, assignments to slices), the loop over modes | a graph is given by node and edge weights; each update is shown to add the sums of its graph (sums over windows, blocks and permutations); explicit witnesses for the violations | partial. Proved for lists of modes without serial_regression. False: serial_regression replaces the block size for later modes; labels that are too few are accepted; serial with one block changes sums but not counts; the second graph of DualSerial has weight zero; mixed adds data before it refuses them. |
| C162 | Outputs of a GSFA node are normalised and ordered on the training graphs | `GSFANode._stop_training`, `_execute`; solver as a parameter | the accumulators hold the sums for all graphs (invariant); weighted means and covariances as bilinear forms; minimality of generalised eigenvectors as for SFA | proved. The eigenvalue solver is a parameter with the contract Solves; one mode for each call of train. |
| C163 | A GSFA node finds the slowest features on the training graphs | `GSFANode._stop_training`, `_execute`; solver as a parameter | the accumulators hold the sums for all graphs (invariant); weighted means and covariances as bilinear forms; minimality of generalised eigenvectors as for SFA | proved.  |
| C164 | A GSFA node can retry after the eigenvalue solver failed | `GSFANode._stop_training`, `_execute`; solver as a parameter | the accumulators hold the sums for all graphs (invariant); weighted means and covariances as bilinear forms; minimality of generalised eigenvectors as for SFA | proved.  |
| C165 | Classification does not depend on the order of the samples | `gsfa_nodes.py`: the accumulators, all updates (arrays as rows by index, slices, assignments to slices), the loop over modes | a graph is given by node and edge weights; each update is shown to add the sums of its graph (sums over windows, blocks and permutations); explicit witnesses for the violations | proved. argsort is any sorting permutation. |
| C166 | Accumulators of GSFA can be joined | `gsfa_nodes.py`: the accumulators, all updates (arrays as rows by index, slices, assignments to slices), the loop over modes | a graph is given by node and edge weights; each update is shown to add the sums of its graph (sums over windows, blocks and permutations); explicit witnesses for the violations | proved. The other object must have been trained with samples and edges; otherwise TypeError. |
| C167 | Updates of CCIPCANode use weights that sum up to one, and give unit vectors | `pca_nodes_online.py` over the reals, vectors as columns with lengths | recursion over components with residuals; invariant (positive lengths) by induction over samples; explicit witnesses | proved. Entries are real numbers. A division by zero (nan) ends the model. |
| C168 | Training CCIPCANode never divides by zero | `pca_nodes_online.py` over the reals, vectors as columns with lengths | recursion over components with residuals; invariant (positive lengths) by induction over samples; explicit witnesses | proved. Real numbers: underflow is not modelled. The random vectors are a parameter. |
| C169 | The first component of CCIPCANode is an average of projections | `pca_nodes_online.py` over the reals, vectors as columns with lengths | recursion over components with residuals; invariant (positive lengths) by induction over samples; explicit witnesses | proved. For CCIPCANode; the whitening node has the same vectors. |
| C170 | get_reduced_dimsensionality gives the number of components within the variance ratio | `pca_nodes_online.py` over the reals, vectors as columns with lengths | recursion over components with residuals; invariant (positive lengths) by induction over samples; explicit witnesses | partial. The result is the index of the first component that exceeds var_rel times the total variance of the previous sample, which is what is proved. False for the current total: with var_rel=1 (the default) the node reports too few dimensions whenever the variance grows (witness). |
| C171 | CCIPCANode execute and inverse | `pca_nodes_online.py` over the reals, vectors as columns with lengths | recursion over components with residuals; invariant (positive lengths) by induction over samples; explicit witnesses | partial. The sum of projections is proved for all nodes and inputs. It is not x even with as many outputs as inputs, as training does not keep components orthogonal (inverse_false: witness). inverse with n below output_dim always raises (proved for all states). |
| C172 | Initial vectors and training type given to online PCA and MCA nodes are honoured | `pca_nodes_online.py` over the reals, vectors as columns with lengths | recursion over components with residuals; invariant (positive lengths) by induction over samples; explicit witnesses | partial. True for vectors assigned to the property. False for vectors given to the constructor: training raises TypeError (proved for all vectors and samples). Batch training of CCIPCANode with two or more samples raises ValueError (proved for all chunks). |
| C173 | Updates of MCANode give unit vectors, and stay at the minor component | `mca_nodes_online.py`, the loop with growing matrix | projections on eigenvectors of the first update; geometric bound of the quotient of two projections | partial. d is the length of the updated vector before normalisation, not an eigenvalue (witness). |
| C174 | MCANode converges to the minor component | `mca_nodes_online.py`, the loop with growing matrix | projections on eigenvectors of the first update; geometric bound of the quotient of two projections | proved. For the first component and the same chunk at each update. |
| C175 | IncSFANode trains its parts once with each sample | `sfa_nodes_online.py` with the models of its four inner nodes | counting iterations by induction over samples; states with the training counts | partial. True for chunks but the first within an episode. False for the first chunk: average and whitening are trained twice with it, minor components not at all; the result depends on the division (proved for all chunks and divisions; zero_train shows that both trainings succeed). |
| C176 | IncSFANode works on differences of consecutive samples of an episode | `sfa_nodes_online.py` with the models of its four inner nodes | counting iterations by induction over samples; states with the training counts | proved.  |
| C177 | IncSFANode outputs are the slow features of centred data | `sfa_nodes_online.py` with the models of its four inner nodes | counting iterations by induction over samples; states with the training counts | partial. inverse (pseudo-inverse) is not modelled. False for remove_mean=False: training always raises AttributeError (proved for all parameters and data). |
| C178 | CuBICANode filters are an orthogonal matrix | `CuBICANode.core` over the reals: rotations of columns, moments, angle, sweeps | products of rotations are orthogonal (induction over pairs and sweeps); the contrast as a trigonometric polynomial in the angle; witnesses | proved. Entries are real numbers. |
| C179 | CuBICANode stops after a bounded number of sweeps and reports the largest angle | `CuBICANode.core` over the reals: rotations of columns, moments, angle, sweeps | products of rotations are orthogonal (induction over pairs and sweeps); the contrast as a trigonometric polynomial in the angle; witnesses | proved.  |
| C180 | CuBICANode rotates each pair by the angle of largest contrast | `CuBICANode.core` over the reals: rotations of columns, moments, angle, sweeps | products of rotations are orthogonal (induction over pairs and sweeps); the contrast as a trigonometric polynomial in the angle; witnesses | partial. The angle maximises the part of frequency four of the contrast. It does not maximise the contrast (white witness with angle 0 and contrast 0, while another angle gives a positive contrast). |
| C181 | CuBICANode leaves separated signals alone | `CuBICANode.core` over the reals: rotations of columns, moments, angle, sweeps | products of rotations are orthogonal (induction over pairs and sweeps); the contrast as a trigonometric polynomial in the angle; witnesses | proved.  |
| C182 | JADENode filters are an orthogonal matrix with fixed signs | `JADENode.core`: cumulant matrices, Givens angle, loop with bounded number of sweeps | invariant (orthogonal basis, matrices transformed by it); diagonality as a function of the angle; explicit witnesses | proved. The order of the components (argsort of equal numbers) is a parameter. |
| C183 | JADENode ends, with filters or with an exception | `JADENode.core`: cumulant matrices, Givens angle, loop with bounded number of sweeps | invariant (orthogonal basis, matrices transformed by it); diagonality as a function of the angle; explicit witnesses | partial. False for pairs in the degenerate case of C184: two binary signals mixed by 45 degrees are returned although the best rotation is by 45 degrees (violation proved). Proved for all other pairs. |
| C184 | JADENode rotates each pair by the angle of largest joint diagonality | `JADENode.core`: cumulant matrices, Givens angle, loop with bounded number of sweeps | invariant (orthogonal basis, matrices transformed by it); diagonality as a function of the angle; explicit witnesses | partial. True unless toff is zero and ton negative (arctan2(0, 0) is 0). In that case the angle is the worst one: two binary signals mixed by 45 degrees are returned unseparated (witness, for all limits, numbers of iterations and orders). |
| C185 | JADENode diagonalises the matrices of fourth order cumulants | `JADENode.core`: cumulant matrices, Givens angle, loop with bounded number of sweeps | invariant (orthogonal basis, matrices transformed by it); diagonality as a function of the angle; explicit witnesses | partial. True for equal indices. False for two different indices for all data: sqrt(2) multiplies only the first term; for separated signals with small kurtosis the criterion prefers the mixed signals (proved for all such data; weak is a case). |
| C186 | JADENode leaves separated signals alone | `JADENode.core`: cumulant matrices, Givens angle, loop with bounded number of sweeps | invariant (orthogonal basis, matrices transformed by it); diagonality as a function of the angle; explicit witnesses | proved.  |
| C187 | FastICANode in deflation mode returns an orthogonal matrix or raises | `FastICANode.core`: both approaches, all nonlinearities, the numbers of branches, stabilisation, fine-tuning; vectors with nan are `none` | invariants of the loops (valid branch, deflated columns, fine-tuning counters); fixed points; explicit witnesses | partial. Columns are orthogonal with length one or zero. A component that does not converge leaves a column of zeros without an exception (witness for all limits, iterations and numbers of failures). |
| C188 | FastICANode in deflation mode: fine-tuning, initial guess | `FastICANode.core`: both approaches, all nonlinearities, the numbers of branches, stabilisation, fine-tuning; vectors with nan are `none` | invariants of the loops (valid branch, deflated columns, fine-tuning counters); fixed points; explicit witnesses | partial. Fine-tuning: proved. The array guess of the user is overwritten with normalised columns (for all runs). With whitened=False or another dtype the code works on a copy. |
| C189 | FastICANode keeps separated signals | `FastICANode.core`: both approaches, all nonlinearities, the numbers of branches, stabilisation, fine-tuning; vectors with nan are `none` | invariants of the loops (valid branch, deflated columns, fine-tuning counters); fixed points; explicit witnesses | proved. For approach=defl, mu=1, sample_size=1, fine_g=None (fine-tuning is on by default). |
| C190 | Stabilised FastICA steps are damped plain steps | `FastICANode.core`: both approaches, all nonlinearities, the numbers of branches, stabilisation, fine-tuning; vectors with nan are `none` | invariants of the loops (valid branch, deflated columns, fine-tuning counters); fixed points; explicit witnesses | proved. For symmetric mode if the matrix is orthogonal, as it is when the step is made. |
| C191 | FastICANode in symmetric mode returns an orthogonal matrix or raises | `FastICANode.core`: both approaches, all nonlinearities, the numbers of branches, stabilisation, fine-tuning; vectors with nan are `none` | invariants of the loops (valid branch, deflated columns, fine-tuning counters); fixed points; explicit witnesses | proved. The matrix square root of the inverse is a parameter with a contract (symmetric, its square is the inverse); nan ends the model. |
| C192 | Outputs of ICA nodes are white | `ICANode` with whitening (the PCA model), telescope mode, and the node's store of chunks; the core routine is a parameter | bilinear expansion of whitened covariances; PCA reconstruction; induction over the powers; induction over the calls after the exception | proved. Exact arithmetic; the eigenvalue solver is a parameter with a contract. |
| C193 | ICA nodes: inverse undoes execute | `ICANode` with whitening (the PCA model), telescope mode, and the node's store of chunks; the core routine is a parameter | bilinear expansion of whitened covariances; PCA reconstruction; induction over the powers; induction over the calls after the exception | partial. Fails for white_parm with reduce=True when a component is dropped: output_dim stays the input dimension, inverse raises for every output (ica_reduce_false). |
| C194 | ICA nodes: telescope mode | `ICANode` with whitening (the PCA model), telescope mode, and the node's store of chunks; the core routine is a parameter | bilinear expansion of whitened covariances; PCA reconstruction; induction over the powers; induction over the calls after the exception | partial. Samples after the largest power of two are ignored; with too few samples training ends with UnboundLocalError (telescope_false). |
| C195 | ICA nodes: training can be repeated after an exception | `ICANode` with whitening (the PCA model), telescope mode, and the node's store of chunks; the core routine is a parameter | bilinear expansion of whitened covariances; PCA reconstruction; induction over the powers; induction over the calls after the exception | partial. False: the list of chunks has been replaced by an array; every further call raises. |
| C196 | RBMNode samples from the conditional distributions of its energy | `rbm_nodes.py` over the reals; random numbers are arguments, their distribution is Lebesgue measure on the cube; weights that are nan are `none` | the volume of the boxes of random numbers; sums over binary states as products; derivatives of the free energy; induction over rounds and calls | proved. Real numbers; random numbers are uniform on [0,1). |
| C197 | RBMWithLabelsNode samples labels by softmax | `rbm_nodes.py` over the reals; random numbers are arguments, their distribution is Lebesgue measure on the cube; weights that are nan are `none` | the volume of the boxes of random numbers; sums over binary states as products; derivatives of the free energy; induction over rounds and calls | proved. At least one label; the outcome of multinomial is drawn with the probabilities given to it. |
| C198 | Sampling of RBMNode leaves the Boltzmann distribution unchanged | `rbm_nodes.py` over the reals; random numbers are arguments, their distribution is Lebesgue measure on the cube; weights that are nan are `none` | the volume of the boxes of random numbers; sums over binary states as products; derivatives of the free energy; induction over rounds and calls | proved.  |
| C199 | RBMNode.train is gradient descent of the contrastive divergence | `rbm_nodes.py` over the reals; random numbers are arguments, their distribution is Lebesgue measure on the cube; weights that are nan are `none` | the volume of the boxes of random numbers; sums over binary states as products; derivatives of the free energy; induction over rounds and calls | partial. Proved for n_updates > 0 and chunks with rows. n_updates=0 is an UnboundLocalError; after an empty chunk all weights are nan for ever. |
| C200 | RBMNode: bounded changes and weights | `rbm_nodes.py` over the reals; random numbers are arguments, their distribution is Lebesgue measure on the cube; weights that are nan are `none` | the volume of the boxes of random numbers; sums over binary states as products; derivatives of the free energy; induction over rounds and calls | proved. Chunks have rows, n_updates > 0. |
| C201 | Parallel execution of a BiFlow gives the result of sequential execution | `ParallelBiFlow` on top of the model of `BiFlow` and `BiFlowNode`: tasks, result containers, phases on the scheduler or local, the loop over schedulers | a bisimulation of executions up to a relation of states; both executions are equivalent to the same list of executions of single chunks; induction over phases and nodes | partial. Proved for executions that return data, as an equivalence (so exceptions agree too); concatenate of one array must be that array. For a chunk without output data BiFlow.execute returns the message and ParallelBiFlow.execute raises. |
| C202 | Parallel training of a BiFlow gives the result of sequential training | `ParallelBiFlow` on top of the model of `BiFlow` and `BiFlowNode`: tasks, result containers, phases on the scheduler or local, the loop over schedulers | a bisimulation of executions up to a relation of states; both executions are equivalent to the same list of executions of single chunks; induction over phases and nodes | partial. Proved for nodes whose stop_training returns None or the target "exit". A node that sends a message through the flow when its training ends makes ParallelBiFlow.train raise an IndexError; a training target "exit" is accepted in parallel only. |
| C203 | ParallelBiFlow.train accepts a scheduler or one scheduler per node | `ParallelBiFlow` on top of the model of `BiFlow` and `BiFlowNode`: tasks, result containers, phases on the scheduler or local, the loop over schedulers | a bisimulation of executions up to a relation of states; both executions are equivalent to the same list of executions of single chunks; induction over phases and nodes | partial. Proved for one scheduler. With an iterable of schedulers train never returns normally: `None > last_trained_node` raises a TypeError (for every flow, data and list of schedulers). |
| C204 | ParallelCheckpointBiFlow.train passes the messages on | `ParallelBiFlow` on top of the model of `BiFlow` and `BiFlowNode`: tasks, result containers, phases on the scheduler or local, the loop over schedulers | a bisimulation of executions up to a relation of states; both executions are equivalent to the same list of executions of single chunks; induction over phases and nodes | partial. Violated: stop_messages are dropped with a scheduler, and without one the call raises a TypeError. |
| C205 | FastICANode takes the documented steps | the loops of `FastICANode.core` | an invariant over the iterations; derivatives of the nonlinearities and linearity of means; induction over the components | proved. For the symmetric approach the statement is about the state at the end of the run. In fine-tuning the step size may be that of the coarse part if it started while the step size was reduced. |
| C206 | FastICANode's step is the Newton step | the loops of `FastICANode.core` | an invariant over the iterations; derivatives of the nonlinearities and linearity of means; induction over the components | proved.  |
| C207 | FastICANode counts failures | the loops of `FastICANode.core` | an invariant over the iterations; derivatives of the nonlinearities and linearity of means; induction over the components | proved.  |
| C208 | Training an OnlineFlowNode trains the nodes of the flow in order | `flownode_online.py` on top of the models of `OnlineNode` and of the flows: the training sequence as a list of items, forwarding of dimensions and dtype, dimension fixing | the loop over the items is shown to be a walk through the nodes by induction over the nodes; an invariant over histories of calls | partial. Proved for flows whose nodes with training phases are in training. False for a trained ordinary node in the flow, which the class documents as allowed: is_trainable() is still true, so train calls its train method, and never returns. The last trainable node is not executed in training and is compared with the flow only through the data it gets. |
| C209 | stop_training of an OnlineFlowNode stops every node | `flownode_online.py` on top of the models of `OnlineNode` and of the flows: the training sequence as a list of items, forwarding of dimensions and dtype, dimension fixing | the loop over the items is shown to be a walk through the nodes by induction over the nodes; an invariant over histories of calls | partial. Proved if the first node is trainable. Otherwise stop_training always raises a TypeError: the function that does nothing has a positional parameter and is called without. |
| C210 | An online flow node executes its flow | `flownode_online.py` on top of the models of `OnlineNode` and of the flows: the training sequence as a list of items, forwarding of dimensions and dtype, dimension fixing | the loop over the items is shown to be a walk through the nodes by induction over the nodes; an invariant over histories of calls | partial. Proved if the output dimension of the flow node is known, or that of the last node is the input dimension. False until stop_training if the last node has learnt an output dimension other than the input dimension: every execute raises, because output_dim is first set to input_dim. If the last node has no output dimension either, its input dimension is filled in; a node that keeps dimensions (an IdentityNode after a reduction) then makes the first execute raise, while the same call again works (unknown_execute_violation); other nodes get the input dimension of the flow as output dimension and are executed. These five theorems are about OnlineFlowNode. |
| C211 | The training type of an online flow node follows its nodes | `flownode_online.py` on top of the models of `OnlineNode` and of the flows: the training sequence as a list of items, forwarding of dimensions and dtype, dimension fixing | the loop over the items is shown to be a walk through the nodes by induction over the nodes; an invariant over histories of calls | proved.  |
| C212 | Training a CircularOnlineFlowNode runs the ring | `flownode_online.py` on top of the models of `OnlineNode` and of the flows: the training sequence as a list of items, forwarding of dimensions and dtype, dimension fixing | the loop over the items is shown to be a walk through the nodes by induction over the nodes; an invariant over histories of calls | partial. Training is proved in full; with flow_iterations <= 0 the node still makes one round. stop_training is proved for one iteration and a first node that is trainable; with more iterations, or a first node that is not trainable, it always raises a TypeError. |
| C213 | The likelihood of FANode never decreases in training | `FANode` over the reals on top of the model of `CovarianceMatrix`: the EM loop with its criterion, results, execution and generation | the negative log-likelihood is at most a bound (trace and determinant of positive definite matrices) that the M-step minimises; Woodbury identities; induction over the cycles | proved. Over the reals. |
| C214 | FANode refuses singular data | `FANode` over the reals on top of the model of `CovarianceMatrix`: the EM loop with its criterion, results, execution and generation | the negative log-likelihood is at most a bound (trace and determinant of positive definite matrices) that the M-step minimises; Woodbury identities; induction over the cycles | partial. Proved for at most 300 dimensions. False beyond: there only constant components are refused, because the product of the variances is used instead of the determinant. False for all dimensions after the exception: the accumulated covariance has been deleted, and train and stop_training raise an AttributeError. |
| C215 | Training of FANode succeeds with all other data | `FANode` over the reals on top of the model of `CovarianceMatrix`: the EM loop with its criterion, results, execution and generation | the negative log-likelihood is at most a bound (trace and determinant of positive definite matrices) that the M-step minimises; Woodbury identities; induction over the cycles | proved. Over the reals. |
| C216 | FANode.execute returns the maximum a posteriori estimate | `FANode` over the reals on top of the model of `CovarianceMatrix`: the EM loop with its criterion, results, execution and generation | the negative log-likelihood is at most a bound (trace and determinant of positive definite matrices) that the M-step minimises; Woodbury identities; induction over the cycles | proved. Over the reals. |
| C217 | FANode runs the EM algorithm | `FANode` over the reals on top of the model of `CovarianceMatrix`: the EM loop with its criterion, results, execution and generation | the negative log-likelihood is at most a bound (trace and determinant of positive definite matrices) that the M-step minimises; Woodbury identities; induction over the cycles | proved. Over the reals. A likelihood that does not change at all in cycle 1 is not settled by the criterion. |
| C218 | Data generated by FANode have the distribution of the model | `FANode` over the reals on top of the model of `CovarianceMatrix`: the EM loop with its criterion, results, execution and generation | the negative log-likelihood is at most a bound (trace and determinant of positive definite matrices) that the M-step minimises; Woodbury identities; induction over the cycles | proved. The random numbers are arguments of the model. |
| C219 | FDA outputs are decorrelated and ordered by the scatter within the classes | `FDANode` from the second phase on, on top of the statistics of C80 and `Join.FdaSt`, with a solver of the generalised eigenvalue problem as parameter | the scatter within the classes is the quadratic form of the accumulated matrix; expansion in generalised eigenvectors as for SFA | proved. The eigenvalue solver is a parameter with the contract Solves. |
| C220 | FDA outputs separate the classes best | `FDANode` from the second phase on, on top of the statistics of C80 and `Join.FdaSt`, with a solver of the generalised eigenvalue problem as parameter | the scatter within the classes is the quadratic form of the accumulated matrix; expansion in generalised eigenvectors as for SFA | proved. The eigenvalue solver is a parameter with the contract Solves. |
| C221 | FDA training can be completed after a failure of the solver | `FDANode` from the second phase on, on top of the statistics of C80 and `Join.FdaSt`, with a solver of the generalised eigenvalue problem as parameter | the scatter within the classes is the quadratic form of the accumulated matrix; expansion in generalised eigenvectors as for SFA | partial. False: the accumulated statistics are deleted before the solver is called, and train and stop_training raise an AttributeError after every failure of the solver. |
| C222 | FDA inverse | `FDANode` from the second phase on, on top of the statistics of C80 and `Join.FdaSt`, with a solver of the generalised eigenvalue problem as parameter | the scatter within the classes is the quadratic form of the accumulated matrix; expansion in generalised eigenvectors as for SFA | proved. Solver and pseudo-inverse are parameters with the contracts Solves and GenInverse. |
| C223 | Crash recovery dumps the flow as the failed call left it | the functions of `Flow` on the flow as a whole with the list of dumps written (`Flow/Crash.lean`), `CheckpointSaveFunction` | refinement to the model of C16 by induction over nodes, phases and chunks, with an account of the dumps; relations closed under the calls a flow makes give the state after a crash | partial. Proved for execute and inverse. False for train: if a node before the one in training fails, the flow is dumped but a plain FlowException without the exception of the node is raised; if the training of a node raises a FlowExceptionCR itself (a flow within a flow), nothing is dumped. |
| C224 | Training again after a crash | the functions of `Flow` on the flow as a whole with the list of dumps written (`Flow/Crash.lean`), `CheckpointSaveFunction` | refinement to the model of C16 by induction over nodes, phases and chunks, with an account of the dumps; relations closed under the calls a flow makes give the state after a crash | partial. False as far as chunks accepted in the open phase before the failure are concerned: they count twice. A node that had seen all of its data when the next node failed is trained on them again. |
| C225 | CheckpointSaveFunction saves the trained node | the functions of `Flow` on the flow as a whole with the list of dumps written (`Flow/Crash.lean`), `CheckpointSaveFunction` | refinement to the model of C16 by induction over nodes, phases and chunks, with an account of the dumps; relations closed under the calls a flow makes give the state after a crash | partial. False for nodes that are not in training with stop_training=1: training is given up with an unwrapped TrainingFinishedException and the file is empty. |
| C226 | Eta values measure the changes of the training data | `EtaComputerNode` (`Nodes/Eta.lean`) over the reals, `SFANode.get_eta_values` on top of the model of C113 | sums of squares about the mean; telescoping sums of cosines; delta values of SFA outputs from C113 | proved. Over the reals. |
| C227 | Eta values do not depend on how a sequence is cut into chunks | `EtaComputerNode` (`Nodes/Eta.lean`) over the reals, `SFANode.get_eta_values` on top of the model of C113 | sums of squares about the mean; telescoping sums of cosines; delta values of SFA outputs from C113 | partial. False: the change from one chunk to the next is lost. Proved for chunks that overlap in one sample. |
| C228 | The eta value of a sine is its number of oscillations | `EtaComputerNode` (`Nodes/Eta.lean`) over the reals, `SFANode.get_eta_values` on top of the model of C113 | sums of squares about the mean; telescoping sums of cosines; delta values of SFA outputs from C113 | partial. False as an exact statement. The exact value for the T+1 samples of T steps is T/pi sin(pi N/T) sqrt((T-1)/T), which is below N and close to it if T is large compared with N. |
| C229 | EtaComputerNode and SFANode agree on eta values | `EtaComputerNode` (`Nodes/Eta.lean`) over the reals, `SFANode.get_eta_values` on top of the model of C113 | sums of squares about the mean; telescoping sums of cosines; delta values of SFA outputs from C113 | partial. False: the values differ by the factor sqrt((n-1)/n), because SFANode divides the sum of the squared changes by n-1. Proved with this factor. |
| C230 | Copies of flows and nodes are independent | a memory of objects and references with `deepcopy`, `Flow.copy`, `Node.copy`, `FlowNode.copy`, slices, `+`, `+=` and the operations on items (`Copy/Model.lean`) | sets of objects closed under references; an invariant that says which sets are touched, kept by copying one node after the other; induction on the recursion limit; a bisimulation along paths | proved. deepcopy is modelled as a copy of all objects with shifted references. |
| C231 | FlowNode.copy | a memory of objects and references with `deepcopy`, `Flow.copy`, `Node.copy`, `FlowNode.copy`, slices, `+`, `+=` and the operations on items (`Copy/Model.lean`) | sets of objects closed under references; an invariant that says which sets are touched, kept by copying one node after the other; induction on the recursion limit; a bisimulation along paths | partial. The copy is equal in appearance and independent. False otherwise: the original keeps a Flow instead of a list in the attribute flow of its flow, nested one level deeper with every copy, so that flow + flownode.flow and flownode.flow += flow raise a TypeError and a limited number of copies ends in a RecursionError; a failure leaves it without nodes; a node that occurs twice is copied twice. |
| C232 | Concatenation keeps the nodes | a memory of objects and references with `deepcopy`, `Flow.copy`, `Node.copy`, `FlowNode.copy`, slices, `+`, `+=` and the operations on items (`Copy/Model.lean`) | sets of objects closed under references; an invariant that says which sets are touched, kept by copying one node after the other; induction on the recursion limit; a bisimulation along paths | partial. False for node + flow, where both the node and the nodes of the flow are copied; proved for the other cases. |
| C233 | Changing a flow changes no other flow | a memory of objects and references with `deepcopy`, `Flow.copy`, `Node.copy`, `FlowNode.copy`, slices, `+`, `+=` and the operations on items (`Copy/Model.lean`) | sets of objects closed under references; an invariant that says which sets are touched, kept by copying one node after the other; induction on the recursion limit; a bisimulation along paths | partial. False for +=, which extends the list given to the constructor in place; proved for the other operations. |
| C234 | random_rot returns a rotation | `random_rot`, `symrand`, `mult_diag` (`Utils/Random.lean`) over the reals with the random numbers as arguments | Householder matrices are orthogonal with determinant -1 (matrix determinant lemma); induction over the passes; traces of squares | proved. Over the reals, for random numbers as they are with probability one; a first number that is zero gives determinant zero. That the distribution is uniform is not proved. |
| C235 | symrand returns a Hermitian matrix with the given eigenvalues | `random_rot`, `symrand`, `mult_diag` (`Utils/Random.lean`) over the reals with the random numbers as arguments | Householder matrices are orthogonal with determinant -1 (matrix determinant lemma); induction over the passes; traces of squares | partial. Proved for real dtypes. With complex dtypes the result is Hermitian, but does not have the eigenvalues given, because the imaginary part is added afterwards; only their sum is right. |
| C236 | rotate and permute change arrays in place as documented | `rotate`, `permute`, `cov2`, `cov_maxima`, `sqrtm`, `gabor`, `izip_stretched`, `orthogonal_permutations`, `bool_to_sign`, `sign_to_bool` (`Utils/Routines.lean`); views and copies of columns are distinguished | calculation; induction over the dimension and the tuples | proved. Over the reals; indices are not negative. |
| C237 | cov2 computes the covariance | `rotate`, `permute`, `cov2`, `cov_maxima`, `sqrtm`, `gabor`, `izip_stretched`, `orthogonal_permutations`, `bool_to_sign`, `sign_to_bool` (`Utils/Routines.lean`); views and copies of columns are distinguished | calculation; induction over the dimension and the tuples | partial. False unless one of the means is zero: the product of the means is not scaled by n/(n-1), so that the result is too large by the product of the means divided by n-1. |
| C238 | cov_maxima matches rows and columns greedily | `rotate`, `permute`, `cov2`, `cov_maxima`, `sqrtm`, `gabor`, `izip_stretched`, `orthogonal_permutations`, `bool_to_sign`, `sign_to_bool` (`Utils/Routines.lean`); views and copies of columns are distinguished | calculation; induction over the dimension and the tuples | proved.  |
| C239 | sqrtm computes the square root | `rotate`, `permute`, `cov2`, `cov_maxima`, `sqrtm`, `gabor`, `izip_stretched`, `orthogonal_permutations`, `bool_to_sign`, `sign_to_bool` (`Utils/Routines.lean`); views and copies of columns are distinguished | calculation; induction over the dimension and the tuples | proved. The eigenvalues and eigenvectors are a parameter with the contract Eigen. |
| C240 | gabor returns a wavelet around its centre | `rotate`, `permute`, `cov2`, `cov_maxima`, `sqrtm`, `gabor`, `izip_stretched`, `orthogonal_permutations`, `bool_to_sign`, `sign_to_bool` (`Utils/Routines.lean`); views and copies of columns are distinguished | calculation; induction over the dimension and the tuples | partial. Proved with a given centre. The default centre is wrong for arrays that are not square: its coordinates are in the order (row, column), but are read as (column, row). |
| C241 | izip_stretched repeats single values | `rotate`, `permute`, `cov2`, `cov_maxima`, `sqrtm`, `gabor`, `izip_stretched`, `orthogonal_permutations`, `bool_to_sign`, `sign_to_bool` (`Utils/Routines.lean`); views and copies of columns are distinguished | calculation; induction over the dimension and the tuples | proved.  |
| C242 | orthogonal_permutations gives every combination once | `rotate`, `permute`, `cov2`, `cov_maxima`, `sqrtm`, `gabor`, `izip_stretched`, `orthogonal_permutations`, `bool_to_sign`, `sign_to_bool` (`Utils/Routines.lean`); views and copies of columns are distinguished | calculation; induction over the dimension and the tuples | proved.  |
| C243 | NIPALS loadings are orthonormal and variances those of the outputs | `NIPALSNode._stop_training` (`Nodes/Nipals.lean`) over the reals; nan is `none` | one step: the loading is a unit vector in the row space, the score vector its image, the deflated data kill the loading; induction over the components with all invariants from the data at that point; Cauchy-Schwarz for the bounds | proved. Over the reals; nan is modelled as none. |
| C244 | NIPALS outputs are uncorrelated and loadings eigenvectors up to the threshold | `NIPALSNode._stop_training` (`Nodes/Nipals.lean`) over the reals; nan is `none` | one step: the loading is a unit vector in the row space, the score vector its image, the deflated data kill the loading; induction over the components with all invariants from the data at that point; Cauchy-Schwarz for the bounds | proved. Over the reals. |
| C245 | NIPALS variances add up to the total variance | `NIPALSNode._stop_training` (`Nodes/Nipals.lean`) over the reals; nan is `none` | one step: the loading is a unit vector in the row space, the score vector its image, the deflated data kill the loading; induction over the components with all invariants from the data at that point; Cauchy-Schwarz for the bounds | proved. Over the reals. |
| C246 | NIPALS explained_variance is the fraction of the variance kept | `NIPALSNode._stop_training` (`Nodes/Nipals.lean`) over the reals; nan is `none` | one step: the loading is a unit vector in the row space, the score vector its image, the deflated data kill the loading; induction over the components with all invariants from the data at that point; Cauchy-Schwarz for the bounds | partial. False by the factor n/(n-1): the total variance is divided by n, the variances of the outputs by n-1. So too few components may be kept; with a number of components (or none) given the value is always n/(n-1) > 1, because all components are added up. |
| C247 | NIPALS finds the components in the order of their variance for all data | `NIPALSNode._stop_training` (`Nodes/Nipals.lean`) over the reals; nan is `none` | one step: the loading is a unit vector in the row space, the score vector its image, the deflated data kill the loading; induction over the components with all invariants from the data at that point; Cauchy-Schwarz for the bounds | partial. False: the iteration starts from the first input. If it is constant all components are nan; if it is uncorrelated with the others it is the first component whatever its variance, and all others are nan. Proved: nan occurs only if the first input is a linear combination of the outputs found before. |
| C248 | XSFA trains its extractors in order, each for exactly its phases | `XSFANode` (`Xsfa/Model.lean`): structure of the extractors with their numbers of phases, `stop_training` | invariant by induction over the phases | proved.  |
| C249 | NormalizeNode gives mean zero and variance one, and its inverse undoes it | `NormalizeNode`, `ProjectionNode` over the covariance matrices of `Num/Cov.lean` | refinement to textbook covariances (C-theorems of the covariance module), then least squares by completing the square | proved. Over the reals. An input that is constant on the training data gives nan for all data. |
| C250 | XSFA removes from the signals everything linear in the expanded sources | `NormalizeNode`, `ProjectionNode` over the covariance matrices of `Num/Cov.lean` | refinement to textbook covariances (C-theorems of the covariance module), then least squares by completing the square | proved. Over the reals. Without signals left (L = 0) the node raises. |
| C251 | XSFA sources are final | execution of extractors whose SFA, expansion and whitening nodes are functions of rows | induction over the extractors | proved. For every extractor whose parts give rows of the right lengths. |
| C252 | Radial basis functions have the documented values | `RBFExpansionNode`, `GeneralExpansionNode` (`Nodes/Rbf.lean`); assignments with repeated axes | algebra with Mathlib matrices (positive definite, inverse); induction over the functions | partial. Proved over the reals for sizes of a float type. False for a covariance matrix given with integers: the inverse is converted to integers; for twice the identity all outputs are one. |
| C253 | The neural gas expansion has a proper width for every node | `GrowingNeuralGasExpansionNode` over the neural gas of `Nodes/NeuralGas.lean` | invariants of training (no isolated nodes) from the neural gas module | partial. Proved for every node with a neighbour at another place. If the start positions and all data are one point the widths are zero and the outputs nan. |
| C254 | A general expansion is the concatenation of its functions | `RBFExpansionNode`, `GeneralExpansionNode` (`Nodes/Rbf.lean`); assignments with repeated axes | algebra with Mathlib matrices (positive definite, inverse); induction over the functions | partial. The concatenation is proved. A function that returns a single column (or row) where more are expected is not refused; the column is repeated. |
| C255 | Convolution2DNode gives the convolution of every image with every filter | `Convolution2DNode` (`Nodes/Conv.lean`) with the state kept between executions | the state is the new one or one fixed state by induction over the history; index arithmetic; witnesses | proved. Over the reals; scipy by its documentation. |
| C256 | Convolution2DNode refuses data that do not fit | `Convolution2DNode` (`Nodes/Conv.lean`) with the state kept between executions | the state is the new one or one fixed state by induction over the history; index arithmetic; witnesses | proved.  |
| C257 | New filters of a Convolution2DNode are used, or refused | `Convolution2DNode` (`Nodes/Conv.lean`) with the state kept between executions | the state is the new one or one fixed state by induction over the history; index arithmetic; witnesses | partial. Proved for filters of the same number and shape. False otherwise: output_dim stays, and ndarray.resize cuts the results off so that the rows of the output are mixed up; in the mode valid a result of one element is repeated. |
| C258 | The weights of LLENode are the best reconstruction of every point from its neighbours | `LLENode` (`Nodes/Lle.lean`) over an ordered field; `argsort`, singular values, `eigh`, `svd`, `qr` as parameters | the regularised normal equations characterise the minimum (convexity); Cramer rule; witnesses over the rationals | proved. Over an ordered field; argsort with any order of equal distances; solve as Cramer rule. |
| C259 | LLENode can be trained with at most as many neighbours as there are points | `LLENode` (`Nodes/Lle.lean`) over an ordered field; `argsort`, singular values, `eigh`, `svd`, `qr` as parameters | the regularised normal equations characterise the minimum (convexity); Cramer rule; witnesses over the rationals | partial. Proved for r > 0 and fewer neighbours than points. False for k equal to the number of points: accepted by the check, then IndexError or ValueError. |
| C260 | LLENode maps new points by the weights of their nearest training points | `LLENode` (`Nodes/Lle.lean`) over an ordered field; `argsort`, singular values, `eigh`, `svd`, `qr` as parameters | the regularised normal equations characterise the minimum (convexity); Cramer rule; witnesses over the rationals | partial. Independence of the other rows is proved for r given or k <= output_dim. False for r None: the value computed for the first row is kept for the others. |
| C261 | LLENode gives training points their training projection, with the documented regularisation | `LLENode` (`Nodes/Lle.lean`) over an ordered field; `argsort`, singular values, `eigh`, `svd`, `qr` as parameters | the regularised normal equations characterise the minimum (convexity); Cramer rule; witnesses over the rationals | partial. False: the regularisation moves training points, and execution adds r itself, not r times the trace. What the output is instead is lle_execute of C260. |
| C262 | The embedding of LLENode has the least reconstruction error | the null space of the weights by `eigh` or `svd`, given by their specification | eigenvalue optimality (Ky Fan) with the constant vector added; existence of exact routines from the spectral theorem | partial. Orthonormality and least error are proved; the columns are centred if only constants have error zero. False in general: output_dim >= number of points is accepted and gives fewer columns; for disconnected neighbourhoods the columns need not be centred. eigh and svd by their specification. |
| C263 | LLENode only depends on the distances | neighbours by distances, `_adjust_output_dim` | the local products are determined by the distances (polarisation); counting around the median | proved. For data without equal distances, r and output_dim given. |
| C264 | A fractional output_dim of LLENode explains that part of the local variance | neighbours by distances, `_adjust_output_dim` | the local products are determined by the distances (polarisation); counting around the median | proved.  |
| C265 | HLLENode works with few neighbours | `_mgs`, the checks and the loop of `HLLENode` (`Nodes/Lle.lean`) | induction over the columns; orthonormal vectors are at most as many as dimensions | partial. False: in exact arithmetic the modified Gram-Schmidt procedure always divides by zero, because there are more forms than neighbours (floats: rounding errors are normalised). It is proved to give orthonormal vectors when no norm is zero. |
| C266 | The embedding of HLLENode has the least Hessian error | the Hessian estimators by `qr`, the null space, `sqrtm` | the columns of `qr` after the first are orthogonal to constants and coordinates; eigenvalue optimality; the square root of a multiple of the identity | proved. Over the reals; eigh, svd and qr by their specification. The columns have the length N; they are centred if only constants have no error. |
| C267 | HLLENode can be trained exactly for fitting numbers of neighbours | `_mgs`, the checks and the loop of `HLLENode` (`Nodes/Lle.lean`) | induction over the columns; orthonormal vectors are at most as many as dimensions | partial. Proved for k < number of points. False for k equal to it: accepted by the check, then ValueError. |
| C268 | HLLENode recovers flat data | the same for data in a flat | the local products have rank at most `output_dim` (linear independence), so the eigenvectors beyond have eigenvalue zero | proved. Over the reals, for enough neighbours. |
| C269 | ISFANode knows the objective of the angles it tries | `_givens_angle_case1`, `_givens_angle_case2`, `_get_contrast` (`Isfa/Model.lean`); the grid search is modelled point by point | the sum of all squares does not change; trigonometric identities; the argument of a complex number | proved. Over the reals. |
| C270 | The angle of ISFANode inside the output space is the best | `_givens_angle_case1`, `_givens_angle_case2`, `_get_contrast` (`Isfa/Model.lean`); the grid search is modelled point by point | the sum of all squares does not change; trigonometric identities; the argument of a complex number | proved. Over the reals. |
| C271 | The filters of ISFANode are a rotation | `_do_sweep`, `_optimize`, `_stop_training` with all random choices as parameters | invariants of the loop over pairs and of the loop over sweeps; a run in which the contrast rises (`Isfa/Outer.lean`) | proved. Over the reals; random choices are any permutation of the axes and any orthogonal matrix. |
| C272 | ISFANode does not make the objective worse | `_do_sweep`, `_optimize`, `_stop_training` with all random choices as parameters | invariants of the loop over pairs and of the loop over sweeps; a run in which the contrast rises (`Isfa/Outer.lean`) | partial. False in the code with outer space, with a concrete run: the search for an angle ends with a secant step that may raise the contrast; the sweep refuses the angle but returns its contrast, with which the next sweep compares, so that it accepts the angle. Proved without outer space, and with outer space for each sweep that starts with the contrast of its matrices. |
| C273 | The outputs of ISFANode are white and ordered by slowness | the reordering by slowness, `_execute`, `_inverse` | orthonormal columns | proved. Over the reals; argsort by its specification. |
| C274 | ISFANode can be inverted | the reordering by slowness, `_execute`, `_inverse` | orthonormal columns | proved. After the whitening (see the claims for WhiteningNode). |
| C275 | ISFANode finds the best rotation of two signals | the same for two signals; the parameters of `TDSEPNode` | orthogonal matrices of size two are rotations and reflections | partial. Success is proved for all limits but 1, with which training never succeeds, and 2, with which it succeeds exactly if the start is the optimum up to the threshold or the optimum is zero. The result is the optimum unless the optimum is exactly zero: then the rotation is not made. |
| C276 | TDSEPNode separates two signals | the same for two signals; the parameters of `TDSEPNode` | orthogonal matrices of size two are rotations and reflections | partial. False in exact arithmetic for signals that can be separated exactly: the loop stops when the contrast of the angle is zero, before the rotation. With one time-lag two signals are never rotated. In floating point this needs a contrast of exactly zero, for example a lagged covariance [[0, 1], [1, 0]]. |
| C277 | ISFANode converges within max_iter sweeps or raises | the control variables of `_optimize` | induction over the sweeps | partial. Training ends. False: it raises also if it converges in sweep max_iter; it succeeds exactly if it converges within max_iter - 1 sweeps. |
| C278 | ISFANode can be trained with one signal | the control variables of `_optimize` | induction over the sweeps | partial. False: UnboundLocalError for all one-dimensional data. |
| C279 | The arguments lags and weights of ISFANode | `__init__`, `_set_input_dim`, `_fix_covs` | case analysis | partial. False for one number, which is refused with a TypeError, and for the kind of exception for a wrong length (TypeError). |
| C280 | ISFANode keeps white_comp components and can use given covariance matrices | `__init__`, `_set_input_dim`, `_fix_covs` | case analysis | partial. False: white_comp is ignored if output_dim is given, so a node that whitens has no outer space; a list of covariance matrices raises AttributeError. Proved for white data. |
| C281 | The invariances of a quadratic form are its second derivatives on the sphere | `get_invariances` (`Nodes/QuadInv.lean`); `qr`, `symeig`, `argsort` by their specification | the reduced Hessian in an orthonormal frame; expansion along the great circle | proved. Over an ordered field / the reals; qr, symeig and argsort by their documentation. |
| C282 | Invariances at an extremum have the sign of the extremum | `get_invariances` (`Nodes/QuadInv.lean`); `qr`, `symeig`, `argsort` by their specification | the reduced Hessian in an orthonormal frame; expansion along the great circle | proved. Over the reals. |
| C283 | The solver reg solves the generalised eigenvalue problem approximately on the range of B | `symeig_semidefinite_reg` (`Utils/Reg.lean`, `Utils/RegReal.lean`) | the shifted problem on the range of B; an exact library over the reals as witness | proved. Over an ordered field, with an exact square root. rank_deficit for d*t*2 <= mu. |
| C284 | The solver reg reports the rank deficit and handles constant data | `symeig_semidefinite_reg` (`Utils/Reg.lean`, `Utils/RegReal.lean`) | the shifted problem on the range of B; an exact library over the reals as witness | partial. False: the method reg leaves rank_deficit as it was, whatever is left out; constant data end in an IndexError. |
| C285 | Switchboards of the factory fit the previous layer | `switchboard_factory.py` (`Hinet/Factory.lean`) on top of the models of the switchboards | the theorems about the geometry of the switchboards; arithmetic | proved. Sizes are natural numbers. |
| C286 | Hierarchies of rectangular fields have rectangular receptive fields | `switchboard_factory.py` (`Hinet/Factory.lean`) on top of the models of the switchboards | the theorems about the geometry of the switchboards; arithmetic | proved. The rectangle over two layers for fields of the first layer without gaps. |
| C287 | The switchboard of an image has the pixels as channels | `switchboard_factory.py` (`Hinet/Factory.lean`) on top of the models of the switchboards | the theorems about the geometry of the switchboards; arithmetic | proved.  |
| C288 | The factory makes every kind of switchboard and leaves its arguments alone | `switchboard_factory.py` (`Hinet/Factory.lean`) on top of the models of the switchboards | the theorems about the geometry of the switchboards; arithmetic | partial. Incompatible classes are refused. False: a DoubleRhomb2dSwitchboard cannot be made at all (TypeError: the argument has the wrong name); free_params gets the key ignore_cover; a number of outputs that is not a multiple of the number of channels is accepted and the switchboard does not fit. |
| C289 | Classifiers keep every sample with its label | base classes of classifiers and the translation of labels (`Nodes/ClassifierBase.lean`); the methods of the classifier are parameters | induction over the training calls; case distinction; inverse of a dictionary | partial. Proved for label arrays. False: lists, tuples and single labels end in an AttributeError when they are collected; the data of the failed call are kept, and whatever is trained afterwards, stop_training ends in a ValueError. |
| C290 | Execution of a classifier follows execute_method | base classes of classifiers and the translation of labels (`Nodes/ClassifierBase.lean`); the methods of the classifier are parameters | induction over the training calls; case distinction; inverse of a dictionary | partial. False: an unknown execute_method makes execute return None instead of an exception. |
| C291 | Labels of wrapped classifiers are translated back and forth | base classes of classifiers and the translation of labels (`Nodes/ClassifierBase.lean`); the methods of the classifier are parameters | induction over the training calls; case distinction; inverse of a dictionary | proved.  |
| C292 | A loop over progressinfo sees the elements of the sequence | `progressinfo` as a function from the sequence to what is yielded, and the text of a bar as a list of characters (`Utils/Progress.lean`) | induction over the sequence; rounding half to even is monotone | partial. Proved for sequences that are not empty. False: an empty sequence ends in an UnboundLocalError; a timer with the speed of the last step, iterating on items, ends in a ZeroDivisionError when two items are equal, and in an AttributeError in a fresh interpreter when the first item is not zero. |
| C293 | The progress bar fits into the terminal | `progressinfo` as a function from the sequence to what is yielded, and the text of a bar as a list of characters (`Utils/Progress.lean`) | induction over the sequence; rounding half to even is monotone | partial. Proved for fractions from 0 to 1 and a terminal with at least eight columns more than the indentation. False: an iterator that is longer than announced draws bars beyond the terminal; in a very narrow terminal the text does not fit. |
| C294 | dig_node finds the arrays of a node | `introspection.py` (`Utils/Introspect.lean`): objects are numbers with attributes, the recursion is a stack; sizes as natural numbers | invariants of the search, termination by what is not known yet; powers of the base | partial. Complete if no object that holds arrays is met under a private name. False: an object met under a private name first is not looked into later; a node without arrays ends in a ValueError. The recursion limit of Python is not modelled. |
| C295 | Sizes of nodes are displayed in the right unit | `introspection.py` (`Utils/Introspect.lean`): objects are numbers with attributes, the recursion is a stack; sizes as natural numbers | invariants of the search, termination by what is not known yet; powers of the base | partial. False above the seventh power of the base: IndexError (part of the theorem). |
| C296 | A temporary directory is removed, and nothing else | directories as trees, links lead elsewhere (`Utils/TempDir.lean`) | induction over the tree | partial. False with a symbolic link to a directory: the directory it leads to is emptied, the temporary directory remains and counts as removed. Links inside the directories elsewhere, and links back into the temporary directory, are not modelled. |
| C297 | Noise nodes add the noise they are asked for | `NoiseNode` and `NormalNoiseNode` over the rationals (`Nodes/Noise.lean`) | entry by entry | partial. Proved for floating point types. False for integers: noise between -1 and 1 vanishes, and multiplicative noise gives floating point numbers. |
| C298 | SenderBiNode delivers its data to the recipient | `SenderBiNode` on top of the model of `BiNode.execute` (`Bi/Sender.lean`) | the routing theorem C61 | partial. False for a recipient whose name contains the separator: ValueError in every node that gets the message. |
| C299 | mdp.config lists the dependencies in the order of registration | `configuration.py` (`Utils/Config.lean`) | induction over the registrations; a sorted permutation is unique | proved. Before the first registration info raises ValueError; mdp always registers some. |
| C300 | The parallel python scheduler returns every result once | threads, lock, queue, workers and callbacks as a transition system (`Parallel/PP.lean`); critical sections are single steps | invariant: stored and pending results are those of the tasks since the last call | proved. The pp server is modelled by what the adaptor relies on: queue, workers, one callback per task. |
| C301 | The queue of the parallel python scheduler is bounded and does not stall | threads, lock, queue, workers and callbacks as a transition system (`Parallel/PP.lean`); critical sections are single steps | invariant: stored and pending results are those of the tasks since the last call | proved. That a step is possible; fairness of threads and workers is not modelled. |
| C302 | A failed task does not block the parallel python scheduler | threads, lock, queue, workers and callbacks as a transition system (`Parallel/PP.lean`); critical sections are single steps | invariant: stored and pending results are those of the tasks since the last call | partial. True for the default container of PPScheduler. False for an OrderedResultContainer with two or more tasks: sorting compares None, get_results raises with the lock held and every later call blocks. |
| C303 | kill_slaves kills the recorded slaves | the kill file as a list of characters, the constructor and `kill_slaves` (`Parallel/PPSlaves.lean`) | round trip of writing and splitting lines and numbers | partial. On Python 2. False for addresses with a colon (IPv6): ValueError before any command is sent for this slave and the later ones. On Python 3 a str cannot be written to the pipe. |
| C304 | NetworkPPScheduler starts the slaves it is given | the kill file as a list of characters, the constructor and `kill_slaves` (`Parallel/PPSlaves.lean`) | round trip of writing and splitting lines and numbers | partial. False: a given kill file name is an UnboundLocalError, None processes and Python 3 make the first slave fail with a TypeError and leave its ssh process running; a slave whose script failed (pid -1) is taken for running. |
| C305 | Every algorithm of sklearn is found once | modules and their members as a finite graph, the recursion with its two lists (`Nodes/Scikits.lean`) | depth-first search: what has been added is closed under successors; the fuel is the number of modules | proved.  |
| C306 | Every algorithm of sklearn gets its node | modules and their members as a finite graph, the recursion with its two lists (`Nodes/Scikits.lean`) | depth-first search: what has been added is closed under successors; the fuel is the number of modules | partial. False for two classes of the same name in different modules: the later one replaces the earlier one. |
| C307 | The generated BiNodes take the arguments of their nodes | signatures and the binding of calls in Python (`Bi/Autogen.lean`) | the two calls by name compose to the identity | partial. For nodes with at least one default value and calls without surplus positional arguments. Without a default value the generator raises; surplus positional arguments of a node with *args are refused. Keyword-only arguments are not modelled. |
| C308 | Different nodes get different BiNodes | signatures and the binding of calls in Python (`Bi/Autogen.lean`) | the two calls by name compose to the identity | partial. For names with the ending. False for others, such as the wrapped classifiers of sklearn. |
| C309 | A template is read as it is written | the pattern of the templates as a function on characters (`Utils/Templet.lean`) | reading what was written, piece by piece | proved. Evaluating the pieces is a parameter; white space and letters are the ASCII ones. |
| C310 | Code in a template keeps its relative indentation | the pattern of the templates as a function on characters (`Utils/Templet.lean`) | reading what was written, piece by piece | proved. On the list of lines. |
| C311 | LibSVM parameters are what the user gave | the constructor and the setters on tables of names (`Nodes/LibSvm.lean`) | cases; induction over the parameters | proved. libsvm itself is not modelled. |
| C312 | Options of one Shogun classifier do not reach another | a class-level table and instances as a heap; kernels and classes as lists of candidates; the collected data as a list of chunks (`Nodes/Shogun.lean`) | induction over the history; permutations | partial. For the first node and for histories in which options are not changed. False in general: the table of defaults belongs to the class and set_options changes it, so options of one node reach all nodes. |
| C313 | A Shogun kernel gets its options | a class-level table and instances as a heap; kernels and classes as lists of candidates; the collected data as a list of chunks (`Nodes/Shogun.lean`) | induction over the history; permutations | partial. For options by name. Options given as a list are always an UnboundLocalError; kernels without known options cannot be used by name only. |
| C314 | A Shogun classifier is chosen among the available ones | a class-level table and instances as a heap; kernels and classes as lists of candidates; the collected data as a list of chunks (`Nodes/Shogun.lean`) | induction over the history; permutations | partial. False: the last class that can be made is used, not the first; if none can be made the exception is an AttributeError or the old classifier is lost. |
| C315 | A training set contains each labelled point once | a class-level table and instances as a heap; kernels and classes as lists of candidates; the collected data as a list of chunks (`Nodes/Shogun.lean`) | induction over the history; permutations | proved.  |
| C316 | Peeking loses no data | an iterator as a list, the cache of the peeked elements as a queue (`Bi/PeekIter.lean`) | refinement to a list with a position | proved.  |
| C317 | Tracing does not change a flow | objects with instance dictionaries in a store; calls with a bound on the depth (`Bi/Tracer.lean`) | decoration and its removal as inverse updates of dictionaries; recursion shown for every depth | partial. For flows of distinct plain nodes without methods in the instance, and executions that return. False after an exception: the flow stays decorated and a second trace recurses without end; also for a node that occurs twice, and methods overridden in the instance are lost. |
| C318 | Tracing restores clone layers | objects with instance dictionaries in a store; calls with a bound on the depth (`Bi/Tracer.lean`) | decoration and its removal as inverse updates of dictionaries; recursion shown for every depth | proved.  |
| C319 | Snapshots of the training are complete and removable | the hook in the instance dictionary, files as a table from numbers to states, the order of decimal texts (`Bi/Snapshots.lean`) | induction over the phases; ordering of numerals as texts | partial. For a flow prepared once. Preparing it twice makes the hook call itself. |
| C320 | The slides of a training show the phases in order | the hook in the instance dictionary, files as a table from numbers to states, the order of decimal texts (`Bi/Snapshots.lean`) | induction over the phases; ordering of numerals as texts | partial. In order exactly for at most ten snapshots: the files are sorted as texts. |
| C321 | The debug mode of inspections shows the error | the hook in the instance dictionary, files as a table from numbers to states, the order of decimal texts (`Bi/Snapshots.lean`) | induction over the phases; ordering of numerals as texts | partial. False: the object returned for the slide file is no context manager, so with debug=True an AttributeError replaces the error. Proved: without an error the mode changes nothing. |
| C322 | The ordered dictionary keeps the order of insertion | the doubly linked list as cells in a store (`Utils/OrderedDict.lean`) | representation invariant, refinement to a list of pairs | proved.  |
| C323 | The numerical backend is the one asked for | decision tables; versions as lists of optional numbers (`Utils/Backend.lean`) | cases; induction over the parts | proved. The changes made to new versions of scipy are not modelled. |
| C324 | Old versions of dependencies are recognised | decision tables; versions as lists of optional numbers (`Utils/Backend.lean`) | cases; induction over the parts | partial. For versions with at least as many parts as the known good one. False for shorter ones: a proper beginning of the known good version is not too old. |
| C325 | The wrappers of node methods are transparent | class dictionaries for one pair of methods; wrappers by what they call (`Node/Meta.lean`) | invariant over the class statements: each attribute is described by the source | partial. For hierarchies in which the order of search of an ancestor is the rest of the order of search (single inheritance). False with multiple inheritance: the public method of a mixin after a wrapped class is skipped. A class with a private method such as _label without the public one cannot be created. |
| C326 | Extensions of public methods reach all nodes | class dictionaries for one pair of methods; wrappers by what they call (`Node/Meta.lean`) | invariant over the class statements: each attribute is described by the source | partial. For classes with the private method defined once below the extended class. False otherwise: TimeDelayNode (and each class that redefines _execute of a class that redefines it) calls the original Node.execute, so its executions are never cached. |
| C327 | Slow features with variable time steps | `train` with both covariance objects; memory that is not initialised as a parameter (`Num/VartimeSfa.lean`) | invariant over the chunks: the sums are integrals by the trapezoid rule over the signal and over its difference quotients | partial. For increments as documented. Without time dependence and with as many increments as rows, memory that is not initialised is used; a single chunk of two rows gives a division by zero (or a zero matrix). |
| C328 | Parallel training of VartimeSFANode equals sequential training | `train` with both covariance objects; memory that is not initialised as a parameter (`Num/VartimeSfa.lean`) | invariant over the chunks: the sums are integrals by the trapezoid rule over the signal and over its difference quotients | partial. Proved: the parallel result is that of training without time dependence. False with the default time_dep=True: the time between chunks is lost in parallel. |
| C329 | The linear inverse of iGSFA | the trained node as functions and matrices over a field (`Gsfa/IGsfa.lean`) | linear algebra with finite sums; normal equations; inequality of Bessel | proved. For the inner nodes as functions or matrices; scaling factors that are not zero. The nonlinear inverse is not modelled. In the default mode the inverse ignores the slow part. |
| C330 | The explained variance of iGSFA | the trained node as functions and matrices over a field (`Gsfa/IGsfa.lean`) | linear algebra with finite sums; normal equations; inequality of Bessel | proved. For a least squares regression and white slow features. |
| C331 | The sizes of the two parts of iGSFA | decision logic on dimensions; lists of columns; training state (`Gsfa/IGsfa.lean`) | cases; sorted lists; induction over the batches | partial. Columns: false for QR_decomposition with more slow features than inputs, then the output is too narrow and its inverse is refused. |
| C332 | Shortened nodes compute the first features | decision logic on dimensions; lists of columns; training state (`Gsfa/IGsfa.lean`) | cases; sorted lists; induction over the batches | proved.  |
| C333 | iGSFA is trained in one or several batches | decision logic on dimensions; lists of columns; training state (`Gsfa/IGsfa.lean`) | cases; sorted lists; induction over the batches | proved.  |
| C334 | Delta values and Hamming weights | folds over the items of a dictionary; recursion on halves (`Gsfa/Helpers.lean`) | induction; equality with the specification of GSFA | proved.  |
| C335 | A default fork is made with the arguments of the node | names and two attribute tables (`Parallel/DefaultFork.lean`) | lookup in filtered lists | partial. For constructors with at least one default. Otherwise a missing argument is a TypeError; an attribute of the class with the name of an argument is passed on. |
| C336 | Nodes of a BiFlow by their id | trees of nodes (`Bi/FlowItems.lean`) | mutual induction: the search is a search in the list of nodes in preorder | proved. For containers that are not empty. |
| C337 | The two implementations of graph training agree | `update_graph_old` with the array made into a dictionary (`Gsfa/Compact.lean`) | reduction to the theorem on dictionaries of C157; witness for arrays from C158 | partial. Agreement: always for dictionaries and refused arguments; for arrays only if they are symmetric with rows that sum up to the node weights. Otherwise the optimised method differs from the reference. |
| C338 | Compact classes | labels as functions of the sample, argsort as a parameter (`Gsfa/Compact.lean`) | flipping a bit is a bijection of both halves; sets of bits are counted by digits; induction over the labels | partial. Proved for at least two classes and J <= L < 2^J labels. L = 2^J is accepted although there are only 2^J - 1 different labels: the last one repeats the first (proved). A single class is silently ignored. |
| C339 | Unlabelled samples with smart_unlabeled2 | both branches on the accumulators, with the view that is scaled in place (`Gsfa/Smart.lean`) | finite sums over the joined data; ordered field for the signs | partial. The sums and the consistency are proved. Weights are negative, and so can be the mean squared differences, as soon as there are more than eight unlabelled samples for each labelled one. |
| C340 | Unlabelled samples with smart_unlabeled3 | both branches on the accumulators, with the view that is scaled in place (`Gsfa/Smart.lean`) | finite sums over the joined data; ordered field for the signs | partial. Weights and second moments are right. The sum of the labelled samples is a view that has been scaled in place, so the average is wrong, even for equal samples. Without edges the call fails after the sums have been scaled. |
| C341 | Pictures of flows | visitors as functions to a list of marks, with exceptions; nodes as a tree (`Hinet/Html.lean`) | mutual induction over the tree of nodes; flattening a document is well nested; witnesses | proved. Texts are not escaped by the code; names are taken as they are. The XHTML variant is not modelled. |
| C342 | Representations of single nodes | visitors as functions to a list of marks, with exceptions; nodes as a tree (`Hinet/Html.lean`) | mutual induction over the tree of nodes; flattening a document is well nested; witnesses | partial. DoubleRect2dSwitchboard cannot be shown (an attribute that does not exist is read); the line on unused channels of Rectangular2dSwitchboard is wrong unless they are unused in exactly one direction; use_copies is never shown. |
| C343 | Wrapped sklearn algorithms are trained with all data | a kind over the shared model of Node with an abstract algorithm (`Nodes/ScikitsNode.lean`) | induction over the training calls; invariant over all histories of calls | partial. Training and execution are proved; output_dim is set to the input dimension whatever transform returns. |
| C344 | A failed fit can be repeated | a kind over the shared model of Node with an abstract algorithm (`Nodes/ScikitsNode.lean`) | induction over the training calls; invariant over all histories of calls | partial. After a failed fit no history of calls gives fit the training data again. |
| C345 | Wrapped supervised algorithms and classifiers | a kind over the shared model of Node with an abstract algorithm (`Nodes/ScikitsNode.lean`) | induction over the training calls; invariant over all histories of calls | partial. Transformers and predictors whose fit needs targets can never be trained; probabilities and ranks of wrapped classifiers always raise NotImplementedError. |
| C346 | Singular problems by LDL decomposition | the loops over pivots and interchanges on matrices as they are; LAPACK as a parameter (`Utils/Ldl.lean`) | induction over the indices: the product of interchanges and elementary factors is a permuted triangular matrix; whitening; reuse of the theorems on slow feature analysis | partial. sytrf and trtri of LAPACK are parameters with their documented contract (single pivots, as always for semidefinite matrices); the work on pivots and permutations, the scaling and the eigenproblem are proved, if pivots are zero or above the threshold and no variable is wrongly taken for blank. The threshold is compared with pivots, not with eigenvalues as documented. |
| C347 | Trying another way of dealing with a rank deficit | solvers that also return the matrices they have overwritten; a sequence of calls of stop_training (`Nodes/SfaRetry.lean`) | induction over the failed calls; explicit counterexamples for `reg` and `ldl` | partial. Proved for methods that leave the matrices as they are. False after a failed call with reg, which leaves the threshold on the diagonal of the covariance matrix, and after a failed call with ldl, which leaves the difference matrix permuted. |
| C348 | Training support vector machines | collecting of rows and labels, stopping with and without a kernel, failed calls kept as states (`Nodes/SvmTrain.lean`) | induction over the chunks; step lemmas for the failed calls | partial. The libraries are parameters. False part: after a stop_training that failed for want of a kernel no more samples can be given (AttributeError), and after such an attempt stop_training always fails (ValueError), because the count of rows has grown. |
| C349 | Approximate inverses by least squares | residual functions, start values and the rows of the result; leastsq a parameter (`Nodes/Preimage.lean`) | residuals of a row against the objective; monotonicity of the search | partial. The search (leastsq) is a parameter that must not return larger residuals than those of its start. False for hints of integer type: the result is cut off to integers and can be worse than the hint. |
| C350 | Representations of nodes and flows | text as lists of characters, decimals by `Nat.toDigits` (`Node/Repr.lean`) | unique parsing: cutting at the first parenthesis, comma or new line; induction over the nodes | partial. Flows are proved for plain nodes. False part: settings are not shown, so the expression does not give the value back; and the representation of IncSFANode names init_pca_vectors twice and init_mca_vectors never. |
| C351 | The inverse of online slow feature analysis | `_inverse` on the state of the IncSFA model (`Nodes/IncSfaInv.lean`) | orthogonality of the residual, from the Penrose equations | partial. Proved after two or more samples (the first part for independent slow features); pinv is a parameter with the Penrose equations. False after a single sample: execution does not subtract the average yet, the inverse adds it. Floats idealised as real numbers. |
| C352 | Saving nodes and flows | files as contents, pickle writing in pieces, directories (`Node/Saving.lean`) | decision logic over modes and failures | partial. The pickle module is a parameter. False for protocol 0 (the file is opened in text mode: TypeError and an empty file, on Python 3) and for failures of pickling (the old contents are lost). Crashes of the process are not modelled. |
| C353 | Options of the whitening in ICA nodes | keyword calls with duplicate and unknown arguments, dictionaries kept by reference (`Ica/Options.lean`) | lookup in concatenated argument lists | partial. False for TDSEPNode, which ignores white_parm; for ICANode if the caller changes the dictionary before training is stopped; and XSFANode changes the dictionaries it is given. |
| C354 | Copies, pickles and comparison of ordered dictionaries | the linked list model of `OrderedDict` with copying, reduction and comparison (`Utils/OrderedDict2.lean`) | the representation invariant of the linked list, kept by rebuilding from the items | partial. False only for transitivity of equality. The methods inherited from DictMixin (Python 2 UserDict) are modelled from its documentation. |
| C355 | Modules of exported objects | `__module__` as a mutable map over a graph of objects, depth-first recursion with fuel (`Utils/Fixup.lean`) | number of pending objects decreases; closure of marked objects; induction on reachability | proved. Each object has its own __module__ and getattr returns the same object each time; functions of bound methods are assumed not to be attributes themselves. Exceptions other than AttributeError are not modelled. |
| C356 | The slides of an inspection are complete | texts of slide files, names with decimal numbers, the JavaScript function that extracts the body (`Bi/Slides.lean`) | injectivity of decimal names, first and last occurrences of the tags | partial. For calls that do not raise and a style file name without "<". False with an empty css_filename: the slide has no body tag and the page shows nothing. If only some slides have a section id, trace_execution raises. toLowerCase of JavaScript is modelled for ASCII. |
| C357 | The generator of an online network is shared and makes training reproducible | nested networks with references to shared generators, a world of generator states (`Online/Rng.lean`) | induction over networks; training after an assignment is a function of one generator | proved. Data and exceptions of training are left out; numbers drawn per node are a parameter. |
| C358 | A node keeps the generator it was given | the same | the training of a container without a generator is training after an assignment of a new one; witness | partial. False in the code: a layer (or flow node) without a generator of its own replaces the generators of all its nodes by one with a random seed at the first training, so seeds given to inner nodes have no effect. Proved for nodes alone and for networks in which every online node has a generator. Also: an unspecified generator stays None until data arrive, contrary to the documentation. |
| C359 | Optional dependencies never break the import, and disabling them works | the seven registrations as functions of the outcomes of imports and the environment, run until the first exception (`Utils/Setup.lean`) | cases per dependency; the last registration of a name decides `has_...` | partial. Proved if imports raise nothing but ImportErrors and modules have the attributes read. False otherwise: joblib (like pp, shogun and sklearn) is imported even if its variable disables it, and any other exception then, or a missing __version__, ends the import of mdp; only libsvm is not imported when disabled. Without the module user (Python 3) parallel python is never available. Outcomes of imports and the integers of versions are parameters. |
| C360 | Supported types follow the backend | the filter over type codes with the comparison of an object and a text | membership in the filtered list | partial. False in the code with scipy: config.has_symeig is an object without __eq__ and is compared with a text, so the large types are never supported. Proved for the other backends and for _safe=False. |
| C361 | Slides of a trace mark the nodes | the traversal of the picture with the counter of ids, the current node and the opening tags (`Bi/TraceHtml.lean`) | what a traversal adds to the page, by induction over nets | proved. If a node occurs several times in a flow, the id recorded is that of its last table. Only the opening tags are modelled; the rest of the picture is that of C341. |
| C362 | Slides of a trace show the data of the call | the marks written for arguments and results (`Bi/TraceData.lean`) | the slide is the text of a tree; nesting of tags | partial. False in the code: the line for None closes its row before its cell, so every slide with the result None (train of nodes that are no BiNodes) is not proper HTML; the message given to stop_training is taken for the data and never shown. Proved for all other slides. Texts that contain HTML are not escaped and are outside of the model. |
| C363 | Controls of a slideshow | the program of the slideshow page as functions on the state of the page, with pending timeouts (`Utils/Slideshow.lean`) | each event leads from a state that shows a slide to one that shows a slide; loops over sections by the distance to the next section; induction over events | partial. False in the code in three places: a show that is stopped and started again before the delay is over shows two slides per delay; with the delay None the script of the page fails (proved for delays that are numbers); with different names of sections that have the same text (1 and "1") the button "next section" never ends (proved for names with different texts). A text that is no number typed into the field of the delay makes it NaN, which is outside of the claim. The size of the images is not modelled. |
| C364 | Data, messages and targets of an execution of a BiFlow | the arguments as Python values, the iterators, the loop over `zip` and the task buffer of the parallel version (`Bi/Args.lean`) | what an iterator gives at each time; induction over the rounds; the task loop is the same loop one task ahead | partial. False in the code in two places: a list of messages without data is refused with a TypeError unless there are targets, too; if there are messages for fewer chunks than there are data, the remaining data are silently not processed. A dictionary that comes with an iterable of data is taken for an iterable of messages (dictionary_keys; the documentation excludes this call). Iterables that end are modelled, not endless ones. |
| C365 | Data and messages of a training of a BiFlow | the checks of the training arguments and the loops over nodes and chunks (`Bi/Args.lean`) | induction over the nodes and over the rounds | partial. False in the code for messages without data: their number is not checked, so that an IndexError ends the training after some nodes are trained. train_lists is for iterables of data (with or without messages); nodes with several phases see the same chunks again (not modelled here). |
| C366 | Phases of a training of a BiFlow | iterables and iterators, the loops over nodes, phases and chunks, with a log of what reaches the nodes (`Bi/Phases.lean`) | induction over the nodes, the phases and the rounds; what is left of an iterator after a round | partial. False in the code in two places: an iterator of messages that has elements left after the first phase is used on, so that the second phase gets the data with other messages and nothing is raised; the number of stop messages is not checked, so that an IndexError ends the training after some or all nodes are trained. Executions that a node starts from train or stop_training are left out here (C202). |
| C367 | Tasks of a parallel training of a BiFlow | the task buffer and the rounds of `_next_train_phase` and `use_results` (`Bi/Phases.lean`) | the task loop is the loop over `zip` one task ahead; induction over the phases and nodes | partial. False in the code for too few stop messages: if the nodes without one are not trainable then the parallel training succeeds while the sequential one raises an IndexError. The effect of the tasks on the nodes is C202. |
| C368 | Every node has a BiMDP version | the attributes of the module, the choice of the classes, the names, the lookup of the base classes and the execution of the generated code (`Bi/AutogenModule.lean`) | induction over the attributes and classes; names with different endings differ | partial. Proved for modules in which each class has its own name, the usual ending and an argument with a default value. A single node without default values, or under another name than its own, makes the whole import fail. |
| C369 | The report on the arrays of a node is a complete, sorted, aligned table | the widths, the sorting, the padding and the loop of `_format_dig` (`Utils/DigText.lean`) | insertion gives a sorted permutation; every name and size is at most as long as the longest | proved. A node without arrays gets no text but the ValueError of max (dig_text_empty_violation). |
| C370 | The page of an inspection or slideshow is complete when it is shown | buffered file objects with an arbitrary strategy, the browsers opened with what they find in the file, the ends of the three functions (`Bi/Page.lean`) | invariant: what is on disk followed by what is in the buffer is what was written | partial. Proved for show_training and for show_image_slideshow with a file name. False for show_execution: the file is opened twice and the object written to is not closed before the browser is opened, so that the browser finds only what has left the buffer (an empty file for pages smaller than the buffer); after the return the page is complete. False for show_image_slideshow without a file name (on Python 3 always a TypeError); a refused slideshow destroys the previous page. Rests on the destruction of file objects by reference counting. |
| C371 | The XHTML picture of a flow | the replacement of texts character by character, the exchange of the file by a buffer (`Hinet/Xhtml.lean`) | the first characters of the replaced texts occur in them only once, so occurrences do not overlap and new ones do not arise; induction over the calls | partial. Proved for all texts and calls without exceptions. False after an exception: the visitor keeps its buffer in the place of the file, and all later pictures are lost without an error. |

## Axioms of the property theorems

From `#print axioms` in `lean/Verif/Axioms.lean`. All of these are part of Lean's standard library.

* **none** (25 theorems): `Mdp.Switchboard.image_array`, `Mdp.Graph.add_tree_empty`, `Mdp.Caching.cache_not_transparent`, `Mdp.Caching.deactivated_plain`, `Mdp.Online.online_flow_chunks`, `Mdp.Markov.string_label_split`, `Mdp.Online.circular_inverse_never_returns`, `Bi.FlowNode.flownode_reset`, `PHinet.switch_back_after_training_false`, `Mdp.Routines.izip_nothing`, `Mdp.Classifier.execute_methods`, `Mdp.Config.config_empty_violation`, `Bi.Tracer.undecorate_clean`, `Bi.Tracer.twice_decorated_recursion`, `Bi.Snapshots.no_debug`, `Mdp.Backend.default_backend`, `Mdp.Backend.other_values`, `Mdp.Backend.backend_recorded`, `Mdp.IGsfa.single_batch`, `Bi.Items.set_del_refused`, `Mdp.ScikitsNode.cls_prob_violation`, `Mdp.IcaOptions.ica_late_options_violation`, `Mdp.Rng.rng_refused`, `Mdp.Rng.no_generator_violation`, `Bi.Page.images_temporary_violation`

* **propext** (131 theorems): `Mdp.Node.set_other_value_raises`, `Mdp.Node.set_unset_value`, `Mdp.Node.preserve_dim_set`, `Mdp.Node.inverse_refused`, `Mdp.Flow.construct_consistent`, `Mdp.Flow.construct_accepts`, `Mdp.Flow.ops_consistent_partial`, `Mdp.Flow.iadd_ok_consistent`, `Mdp.Flow.zero_dim_check_crashes`, `Mdp.Flow.failing_op_unchanged_partial`, `Mdp.Flow.failing_iadd_changes_flow`, `Mdp.Flow.pop_list`, `Mdp.Flow.add_list`, `Mdp.Flow.iadd_list`, `Mdp.Flow.slice_ops_list_partial`, `Mdp.Flow.setSlice_from_iterator_deletes`, `Mdp.Flow.non_node_refused`, `Mdp.Graph.add_full_connectivity_spec`, `Mdp.Ext.roundtrip_loses_own_method`, `Mdp.Ext.roundtrip_injects_inherited`, `Mdp.Ext.roundtrip_loses_none`, `Mdp.Ext.roundtrip_unwraps_staticmethod`, `Mdp.Ext.activate_active`, `Mdp.Ext.deactivate_inactive`, `Mdp.Ext.unknown_extension`, `Mdp.Ext.teardown_failure_stays_active`, `Mdp.Ext.collision_example`, `Mdp.Ext.setup_failure_deletes_method`, `Mdp.Ext.with_statement_failure_deactivates_all`, `Mdp.Caching.subclass_not_cached`, `Mdp.Caching.not_cached_not_stored`, `Mdp.Caching.cached_stored`, `Mdp.TimeFrames.gap_zero_differs`, `Mdp.Markov.markov_refused`, `Bi.execute_no_chunks`, `Bi.execute_seq_bad_start`, `Bi.leaving_targets`, `Bi.plain_target_never_returns`, `Bi.execute_nothing`, `Bi.all_none_raises`, `Mdp.Online.inverse_trace`, `Mdp.Online.online_iadd_violation`, `Mdp.Online.circular_delete_never_returns`, `Mdp.Online.circular_setitem_never_returns`, `Mdp.Online.circular_violation`, `Mdp.Online.set_stored_input_partial`, `Bi.execute_consumes_message`, `Bi.train_starts`, `Bi.chunks_independent`, `Bi.train_no_data`, `Bi.checkpoint_dicts_partial`, `Bi.Layer.switch_to_copies`, `Bi.Layer.switch_back_false`, `Bi.Layer.switch_not_invertible`, `Bi.FlowNode.flownode_refused`, `PHinet.net_train_lost_violation`, `PHinet.collector_lawful`, `PHinet.layer_execution_lost_false`, `PHinet.layer_collector_false`, `Bi.Par.parallel_biflow_stop_message_false`, `Bi.Par.parallel_biflow_exit_false`, `Bi.Par.parallel_biflow_no_data`, `Bi.Par.schedulers_per_node_false`, `Bi.Par.schedulers_per_node_trained`, `Bi.Par.checkpoint_stop_messages_false`, `Bi.Par.checkpoint_no_scheduler_false`, `Mdp.Copy.iadd_flow`, `Mdp.Copy.iadd_shared_false`, `Mdp.Copy.iadd_node_shared_false`, `Mdp.Classifier.labels_refused`, `Mdp.Classifier.labels_list_violation`, `Mdp.Classifier.execute_unknown_violation`, `Mdp.Classifier.normalizer_refused`, `Mdp.Introspect.dig_none_violation`, `Mdp.TempDir.tempdir_once`, `Mdp.Noise.noise_types`, `Mdp.PP.pp_results_contiguous`, `Mdp.PP.pp_list_gives`, `Mdp.PP.pp_ordered_gives_false`, `Mdp.Scikits.wrap_kind`, `Mdp.Scikits.every_algorithm_has_node_false`, `Bi.Autogen.no_defaults_refused`, `Bi.Autogen.biName_spec`, `Bi.Autogen.biName_injective_false`, `Mdp.Templet.code_blank_line`, `Mdp.Templet.directive_name`, `Mdp.Templet.call_refused`, `Mdp.Shogun.options_leak_violation`, `Mdp.Shogun.kernel_unknown_option`, `Mdp.Shogun.kernel_list_refused`, `Mdp.Shogun.kernel_unknown_refused`, `Mdp.Shogun.kernel_bare_refused`, `Mdp.Shogun.first_working_violation`, `Mdp.Shogun.foreign_class_violation`, `Bi.Peek.peek_iterator_queue`, `Bi.Peek.first_elem_empty`, `Bi.Tracer.traced_call`, `Bi.Tracer.override_lost_violation`, `Bi.Snapshots.remove_interrupted_violation`, `Bi.Snapshots.prepare_twice_violation`, `Bi.Snapshots.eleven_phases_violation`, `Bi.Snapshots.debug_mode_violation`, `Mdp.Backend.named_backend`, `Mdp.Meta.mixin_skipped_violation`, `Mdp.IGsfa.several_batches`, `Mdp.Gsfa.hamming_list`, `Mdp.Html.show_flow_refused`, `Mdp.Html.rect_line_violation`, `Mdp.Html.rect_line_partial`, `Mdp.Html.use_copies_violation`, `Mdp.SvmTrain.labels_refused`, `Mdp.SvmTrain.labels2_refused`, `Mdp.Repr.flow_repr_violation`, `Mdp.Repr.incsfa_repr_violation`, `Mdp.Saving.save_load`, `Mdp.Saving.save_not_opened`, `Mdp.Saving.save_ascii_violation`, `Mdp.Saving.save_failed_violation`, `Mdp.Saving.checkpoint_modes`, `Mdp.Saving.robust_refused`, `Mdp.Rng.rng_everywhere`, `Mdp.Rng.own_generator_partial`, `Mdp.Rng.generators_kept`, `Mdp.Slideshow.delay_none_violation`, `Mdp.Slideshow.section_loop_violation`, `Mdp.BiArgs.nothing_refused`, `Mdp.BiArgs.messages_only_violation`, `Mdp.BiArgs.dictionary_keys`, `Mdp.BiArgs.train_count_refused`, `Mdp.Xhtml.xhtml_calls`, `Mdp.Xhtml.xhtml_exception_violation`

* **Quot.sound, propext** (232 theorems): `Mdp.Node.rejected_train_unchanged_partial`, `Mdp.Node.rejected_train_changes_node`, `Mdp.Node.rejected_execute_closes_phase`, `Mdp.Node.cumulator_missing_argument`, `Mdp.Flow.iadd_breaks_consistency`, `Mdp.Flow.append_list`, `Mdp.Flow.extend_list`, `Mdp.Flow.insert_list`, `Mdp.Flow.setItem_list`, `Mdp.Flow.ops_accepted`, `Mdp.Flow.execute_empty`, `Mdp.Flow.execute_nodenr_low`, `Mdp.Flow.execute_nodenr_high`, `Mdp.Flow.execute_chunks`, `Mdp.Flow.inverse_chunks`, `Mdp.Flow.empty_iterable`, `Mdp.Flow.inverse_execute`, `Mdp.Flow.train_array`, `Mdp.Flow.train_leaves_node_open`, `Mdp.Flow.checkpoint_single`, `Mdp.Flow.bad_train_argument`, `Mdp.Flow.bad_checkpoints`, `Mdp.Flow.good_train_argument`, `Mdp.Layer.layer_execute_returns`, `Mdp.Layer.clone_zero_width`, `Mdp.Layer.layer_phases_desync`, `Mdp.Switchboard.construction`, `Mdp.Switchboard.construction_partial`, `Mdp.Switchboard.not_invertible`, `Mdp.Switchboard.mean_inverse_negative`, `Mdp.Switchboard.rect_cover_gap`, `Mdp.Graph.is_weakly_connected_empty`, `Mdp.Graph.remove_node_foreign`, `Mdp.Sched.wrong_callable`, `Mdp.Sched.wrong_callable_not_right`, `Mdp.Sched.thread_limit_unenforced`, `Mdp.Sched.thread_limit_exceeded`, `Mdp.Sched.add_without_callable`, `Mdp.Sched.get_without_results`, `Mdp.Sched.callable_raises`, `Mdp.Sched.callable_raises_thread`, `Mdp.Join.pca_fork_join`, `Mdp.Join.pca_untrained_fork`, `Mdp.Join.sfa_fork_join`, `Mdp.Join.sfa_rejects`, `Mdp.Join.hist_fork_join`, `Mdp.Join.knn_fork_join`, `Mdp.Cov.second_moments`, `Mdp.Cov.covariance_symmetric`, `Mdp.Cov.covariance_resets`, `Mdp.Cov.delayed_get`, `Mdp.Caching.reactivation_keeps_instances`, `Mdp.Expansion.degree_zero`, `Mdp.TimeFrames.frames_rows_exist`, `Mdp.HitParade.chunks_irrelevant`, `Mdp.HitParade.infinite_not_recorded`, `Mdp.Cutoff.hist_sub`, `Mdp.Nearest.nearest_mean_empty`, `Mdp.Nearest.knn_zero`, `Mdp.Hopfield.stop_without_patterns`, `Bi.Path.visited`, `Bi.start_target`, `Bi.execute_empty`, `Bi.some_but_not_all_partial`, `Bi.single_none_is_false`, `Mdp.Online.execute_trace`, `Mdp.Online.stop_hook_repeated`, `Mdp.Online.set_input_node_rotates`, `Mdp.Online.set_output_node_sets`, `Mdp.Online.set_node_rejects_partial`, `Mdp.Online.set_node_past_end`, `Mdp.Online.ring_history`, `Mdp.Sched.shutdown_after_results`, `Mdp.Cov.cross_rejects_mismatch`, `Mdp.Join.sfa_overlapping_chunks`, `Mdp.Join.fda_unknown_label`, `Mdp.Markov.single_label_partial`, `Mdp.Online.multi_phase_terminal_closed`, `Mdp.Online.online_container_step`, `Mdp.Online.online_container_effect`, `Mdp.Online.online_container_accepts`, `Mdp.Online.online_flow_consistent_partial`, `Mdp.Online.online_construct`, `Mdp.Online.online_construct_rejects`, `Mdp.Online.circular_append_partial`, `Mdp.Online.circular_insert_violation`, `Mdp.Online.set_stored_input_dropped`, `Mdp.Online.circular_execute`, `Bi.train_result`, `Bi.stop_closes`, `Bi.single_chunk`, `Bi.get_message_twice`, `Bi.train_in_order`, `Bi.checkpoint_none_fails`, `Bi.checkpoint_neutral_partial`, `Bi.checkpoint_after_training_partial`, `PFlow.pca_respects`, `PFlow.pca_forkJoin`, `PFlow.pca_keepsPhase`, `PFlow.failed_training_blocks`, `PFlow.Exec.execute_underway`, `PFlow.Exec.nodenr_ignored`, `PFlow.wrong_length_refused`, `Mdp.OnlineStats.expAvg_const`, `Mdp.OnlineStats.centering_inverse`, `Mdp.OnlineStats.centering_stop`, `Mdp.OnlineStats.timediff_partial`, `Mdp.Sfa.sfa_retry`, `Mdp.Sfa.sfa_no_train_after_failure`, `Mdp.Sfa.sfa2_form_range`, `Mdp.Quad.extrema_singular`, `Mdp.RecExp.degree_zero_false`, `Mdp.RecExp.train_range`, `Mdp.RecExp.train_defined`, `Mdp.RecExp.transform_id`, `Mdp.RecExp.argument_kept_partial`, `Mdp.NeuralGas.start_kept_partial`, `Bi.FlowNode.flownode_request`, `Bi.FlowNode.train_seq_partial`, `Bi.FlowNode.train_seq_false`, `Bi.FlowNode.train_last_no_target_false`, `Bi.Coroutine.coroutine_continues_partial`, `Bi.Coroutine.after_exception_false`, `Bi.Coroutine.returned_value_false`, `PHinet.net_fork_join_train`, `PHinet.fork_join_train`, `PHinet.layer_lawful`, `PHinet.flow_lawful`, `PHinet.clone_lawful`, `PHinet.built_lawful`, `PHinet.pca_lawful`, `PHinet.switch_counts_prior_false`, `Mdp.Online.batch_chunks_false`, `Mdp.Online.online_layer_stop`, `Mdp.Online.online_layer_stop_dim`, `Mdp.Online.online_layer_init`, `Mdp.Online.online_layer_init_dims`, `Mdp.Online.same_input_init_dims`, `Mdp.Online.online_layer_type_fixed`, `Mdp.Online.execute_trains_twice_false`, `Mdp.Online.clone_online_layer_stop_dim`, `Mdp.Gsfa.gsfa_retry`, `Bi.Par.parallel_biflow_execute_false`, `Bi.Par.scheduler_of_node`, `Mdp.Online.oflownode_execute_partial`, `Mdp.Online.ringnode_execute_partial`, `Mdp.Online.flownode_execute_refused`, `Mdp.Online.unknown_execute_single`, `Mdp.Online.unknown_execute_same`, `Mdp.Online.unknown_execute_told`, `Mdp.Online.unknown_execute_violation`, `Mdp.Online.unknown_execute_refused`, `Mdp.Online.flownode_type`, `Mdp.Fda.fda_no_retry`, `Mdp.Flow.execute_dump`, `Mdp.Flow.inverse_dump`, `Mdp.Flow.execute_blames`, `Mdp.Flow.first_node_recovery`, `Mdp.Flow.nested_recovery_false`, `Mdp.Flow.upstream_recovery_false`, `Mdp.Flow.resume_counts_twice_false`, `Mdp.Flow.resume_previous_node_false`, `Mdp.Flow.save_untrainable_false`, `Mdp.Copy.flow_add`, `Mdp.Copy.flow_add_node`, `Mdp.Copy.node_add_node`, `Mdp.Copy.edit_flow`, `Mdp.Routines.izip_endless`, `Mdp.Routines.orthogonal_permutations_mem`, `Mdp.Routines.orthogonal_permutations_once`, `Mdp.Switchboard.factory_incompatible`, `Mdp.Switchboard.factory_rhomb_violation`, `Mdp.Switchboard.factory_params_violation`, `Mdp.Switchboard.factory_mismatch_violation`, `Mdp.Classifier.labels_collected`, `Mdp.Classifier.labels_retry_violation`, `Mdp.Introspect.dig_sound`, `Mdp.Introspect.dig_complete_partial`, `Mdp.Introspect.dig_names`, `Mdp.Introspect.dig_sizes`, `Mdp.Introspect.dig_hidden_violation`, `Mdp.TempDir.tempdir_removed_partial`, `Mdp.TempDir.tempdir_gone_iff`, `Mdp.TempDir.purge_removes`, `Mdp.Config.config_aligned`, `Mdp.Config.config_bool`, `Mdp.Scikits.every_algorithm_has_node_partial`, `Bi.Autogen.biName_injective_partial`, `Mdp.Templet.unescaped_refused`, `Mdp.Shogun.setOptions_set`, `Mdp.Shogun.training_set_bucket`, `Mdp.Shogun.training_set_perm`, `Bi.Peek.first_elem_spec`, `Bi.Peek.samples_spec`, `Bi.Tracer.undecorate_decorate`, `Bi.Tracer.traced_copy`, `Bi.Tracer.trace_restores`, `Bi.Tracer.during_trace`, `Bi.Tracer.trace_exception_violation`, `Bi.Tracer.shared_node_violation`, `Bi.Tracer.clone_round_trip`, `Bi.Snapshots.remove_prepare`, `Bi.Snapshots.snapshots_written`, `Mdp.Backend.too_old_iff`, `Mdp.Backend.numeric_version`, `Mdp.Backend.short_version_violation`, `Mdp.VartimeSfa.one_row_refused`, `Mdp.IGsfa.slow_translation`, `Mdp.DefaultFork.no_defaults_violation`, `Bi.Items.getItem_first`, `Bi.Items.contains_iff`, `Mdp.ScikitsNode.cls_trained`, `Mdp.SvmTrain.lib_trained`, `Mdp.SvmTrain.lib_prob`, `Mdp.SvmTrain.sg_trained`, `Mdp.SvmTrain.sg_kernel_retry`, `Mdp.SvmTrain.sg_refused`, `Mdp.SvmTrain.sg_more_data_violation`, `Mdp.Repr.flow_str`, `Mdp.Saving.save_string`, `Mdp.IcaOptions.ica_default`, `Mdp.IcaOptions.tdsep_options_violation`, `Mdp.Fixup.fixup_all`, `Mdp.Fixup.fixup_missing`, `Mdp.BiArgs.single_array`, `Mdp.BiArgs.single_message`, `Mdp.BiArgs.parallel_tasks`, `Mdp.BiArgs.train_array`, `Mdp.BiArgs.train_messages_count_violation`, `Mdp.BiPhases.short_stops_violation`, `Mdp.BiPhases.parallel_training`, `Mdp.BiPhases.parallel_stops_violation`

* **Classical.choice, Quot.sound, propext** (921 theorems): `Mdp.Node.phase_range`, `Mdp.Node.nontrainable_phase`, `Mdp.Node.phase_monotone`, `Mdp.Node.phase_steps`, `Mdp.Node.hook_order`, `Mdp.Node.stop_hook_once`, `Mdp.Node.hook_phases_sorted`, `Mdp.Node.accepted_call_runs_own_hook`, `Mdp.Node.failing_call_runs_at_most_own_hook`, `Mdp.Node.execute_ok_trained`, `Mdp.Node.execute_trained_unchanged`, `Mdp.Node.execute_repeat`, `Mdp.Node.execute_untrained_trains_all`, `Mdp.Node.execute_started_never_trains`, `Mdp.Node.dims_write_once`, `Mdp.Node.train_hook_data`, `Mdp.Node.exec_hook_data`, `Mdp.Node.rejected_execute_unchanged_partial`, `Mdp.Node.preserve_dim`, `Mdp.Node.cumulator_collects`, `Mdp.Node.inverse_hook_guard`, `Mdp.Node.inverse_ok`, `Mdp.Flow.getItem_list`, `Mdp.Flow.slice_list`, `Mdp.Flow.execute_composition`, `Mdp.Flow.execute_nodenr_slice_partial`, `Mdp.Flow.inverse_composition`, `Mdp.Flow.train_spec_partial`, `Mdp.Flow.train_all_finished_partial`, `Mdp.Flow.train_failure`, `Mdp.Flow.train_trained_flow`, `Mdp.Flow.checkpoints_once_in_order`, `Mdp.Flow.checkpoint_after_own_data`, `Mdp.Flow.checkpoint_train_eq`, `Mdp.FlowNode.flownode_phase_count`, `Mdp.FlowNode.flownode_train`, `Mdp.FlowNode.flownode_same_as_flow`, `Mdp.FlowNode.flownode_same_as_flow_dtype`, `Mdp.Layer.layer_execute_concat`, `Mdp.Layer.layer_input_dim`, `Mdp.Layer.layer_inverse_undoes`, `Mdp.Layer.clone_execute`, `Mdp.Layer.clone_inverse`, `Mdp.Layer.layer_phases`, `Mdp.Switchboard.negative_index_accepted`, `Mdp.Switchboard.routing`, `Mdp.Switchboard.routing_nonneg`, `Mdp.Switchboard.inverse_partial`, `Mdp.Switchboard.invertible_iff_permutation`, `Mdp.Switchboard.permutation_invertible`, `Mdp.Switchboard.inverse_wrong`, `Mdp.Switchboard.mean_inverse`, `Mdp.Switchboard.mean_inverse_execute`, `Mdp.Switchboard.rect_accepted`, `Mdp.Switchboard.rect_valid`, `Mdp.Switchboard.rect_blocks`, `Mdp.Switchboard.rect_cover_partial`, `Mdp.Switchboard.rect_cover_iff`, `Mdp.Switchboard.pixel_to_index`, `Mdp.Switchboard.index_to_pixel`, `Mdp.Graph.topological_sort_terminates`, `Mdp.Graph.topological_sort_sound`, `Mdp.Graph.topological_sort_raises_iff_cyclic`, `Mdp.Graph.topological_sort_outcomes`, `Mdp.Graph.topological_sort_exception_list`, `Mdp.Graph.dfs_spec`, `Mdp.Graph.undirected_dfs_spec`, `Mdp.Graph.bfs_spec`, `Mdp.Graph.undirected_bfs_spec`, `Mdp.Graph.connected_components_partition`, `Mdp.Graph.is_weakly_connected_iff`, `Mdp.Graph.graph_consistent`, `Mdp.Graph.add_node_spec`, `Mdp.Graph.add_nodes_spec`, `Mdp.Graph.add_edge_spec`, `Mdp.Graph.remove_edge_spec`, `Mdp.Graph.remove_node_spec_partial`, `Mdp.Graph.remove_node_self_loop`, `Mdp.Graph.add_tree_spec`, `Mdp.Ext.roundtrip_partial`, `Mdp.Ext.history_overlay_partial`, `Mdp.Ext.active_set_exact`, `Mdp.Ext.in_force_partial`, `Mdp.Ext.collision_breaks_other`, `Mdp.Ext.failed_activation_local_partial`, `Mdp.Ext.failed_activation_no_trace_partial`, `Mdp.Ext.with_extension_balanced`, `Mdp.Ext.with_statement_partial`, `Mdp.Sched.results_in_order`, `Mdp.Sched.get_results_correct`, `Mdp.Sched.open_tasks_exact`, `Mdp.Sched.get_results_waits`, `Mdp.Sched.result_right_partial`, `Mdp.Sched.result_right_uncached`, `Mdp.Sched.raise_blocks_forever`, `Mdp.Sched.failed_task_blocks`, `Mdp.Sched.lock_progress_partial`, `Mdp.Join.means_fork_join`, `Mdp.Join.gauss_fork_join`, `Mdp.Join.class_sums`, `Mdp.Join.fda_fork_join`, `Mdp.Cov.covariance_correct`, `Mdp.Cov.delay_rejects_short`, `Mdp.Cov.delay_covariance_correct`, `Mdp.Cov.delay_fix_transform`, `Mdp.Cov.delay_zero`, `Mdp.Cov.symmetrize_symmetric`, `Mdp.Cov.vartime_correct_partial`, `Mdp.Cov.vartime_separate_partial`, `Mdp.Cov.vartime_rejects`, `Mdp.Cov.single_row_wrong`, `Mdp.Cov.fix_keeps_last`, `Mdp.Cov.gap_counted_anyway`, `Mdp.Caching.cache_transparent_partial`, `Mdp.Caching.node_cache_transparent_partial`, `Mdp.Caching.cached_iff_partial`, `Mdp.Caching.on_off_restores`, `Mdp.Caching.on_on_off_cached`, `Mdp.Expansion.comb_choose`, `Mdp.Expansion.nmonomials_correct`, `Mdp.Expansion.expandedDim_correct`, `Mdp.Expansion.poly_expansion`, `Mdp.TimeFrames.frames_execute`, `Mdp.TimeFrames.pinv_execute`, `Mdp.TimeFrames.execute_pinv`, `Mdp.TimeFrames.sliding_window`, `Mdp.TimeFrames.delay_execute`, `Mdp.TimeFrames.sliding_eq_delay_partial`, `Mdp.TimeFrames.delay_raises_sliding_does_not`, `Mdp.HitParade.hit_parade`, `Mdp.Cutoff.cutoff_bounds`, `Mdp.Cutoff.hist_all`, `Mdp.Cutoff.adaptive_fraction`, `Mdp.Cutoff.adaptive_stops`, `Mdp.Cutoff.adaptive_exact`, `Mdp.Markov.markov_probabilities`, `Mdp.Markov.markov_unseen`, `Mdp.Nearest.nearest_mean`, `Mdp.Nearest.knn_majority`, `Mdp.Nearest.knn_one`, `Mdp.Hopfield.retrieval_terminates`, `Mdp.Hopfield.retrieval_energy`, `Mdp.Hopfield.weights_correct`, `Bi.execute_without_jumps`, `Bi.execute_seq_path_partial`, `Bi.Move.det`, `Bi.jump_wraps_around`, `Bi.execute_routes`, `Bi.execute_bad_key`, `Mdp.Online.online_train`, `Mdp.Online.online_train_raises`, `Mdp.Online.only_stop_closes`, `Mdp.Online.online_stop`, `Mdp.Online.closed_forever`, `Mdp.Online.oreachable_phase`, `Mdp.Online.stop_only_once`, `Mdp.Online.execute_hook`, `Mdp.Online.online_flow_train`, `Mdp.Online.online_node_learns_chunk`, `Mdp.Online.online_node_learns_every_chunk`, `Mdp.Switchboard.out_channel_node`, `Mdp.Switchboard.input_channels_of`, `Mdp.Switchboard.double_accepted`, `Mdp.Switchboard.double_cover`, `Mdp.Switchboard.double_blocks`, `Mdp.Switchboard.rhomb_accepted`, `Mdp.Switchboard.rhomb_fields`, `Mdp.Switchboard.rhomb_valid`, `Mdp.Switchboard.rhomb_double_cover`, `Mdp.Node.private_data_replay`, `Mdp.Layer.clone_training`, `Mdp.Layer.same_execute_concat`, `Mdp.Layer.same_training`, `Mdp.FlowNode.flownode_dims`, `Mdp.Sched.results_complete`, `Mdp.Sched.process_limit`, `Mdp.Cov.cross_covariance_correct`, `Mdp.Cov.rotate_eq`, `Mdp.Cov.permute_eq`, `Mdp.Cov.transform_eq`, `Mdp.Cov.congr2_symmetric`, `Mdp.Cov.rotate_inverse`, `Mdp.Cov.rotate_trace`, `Mdp.Join.fda_within_class`, `Mdp.Markov.rank_correct`, `Mdp.Markov.weighted_choice_correct`, `Mdp.Perceptron.mistakes_bounded`, `Mdp.Perceptron.perceptron_converges`, `Mdp.Perceptron.correct_unchanged`, `Mdp.Perceptron.train_is_run`, `Mdp.Perceptron.train_refuses`, `Mdp.KMeans.kmeans_converges_partial`, `Mdp.KMeans.nearest_le`, `Mdp.KMeans.too_many_clusters`, `Mdp.KMeans.max_iter_no_centroids`, `Mdp.Gaussian.gaussian_fit`, `Mdp.Gaussian.gaussian_posterior`, `Mdp.Gaussian.gaussian_singular`, `Mdp.Online.train_keeps_online_open_partial`, `Mdp.Online.plain_terminal_first_chunk_only`, `Mdp.Online.online_flow_in_sync_partial`, `Mdp.Online.circular_train`, `Mdp.Online.circular_train_default`, `Mdp.Online.ignored_input`, `Mdp.Online.circular_insert_partial`, `Bi.execute_keeps_message_partial`, `Bi.phases_counted`, `Bi.training_finished`, `Bi.joined_iff`, `Bi.joined_message`, `Bi.train_without_jumps`, `PFlow.parallel_train_sequential`, `PFlow.parallel_tasks`, `PFlow.Exec.parallel_execute_partial`, `PFlow.Exec.stale_forks`, `PFlow.parallel_checkpoints`, `PFlow.checkpoint_gaps`, `PFlow.parallel_schedulers`, `PFlow.schedulers_typeError`, `Mdp.Regression.regression_least_squares`, `Mdp.Regression.regression_exact`, `Mdp.Regression.regression_stops`, `Mdp.Regression.regression_rejects`, `Mdp.OnlineStats.centering_average`, `Mdp.OnlineStats.centering_execute_partial`, `Mdp.OnlineStats.centering_first_sample`, `Mdp.OnlineStats.timediff_batch_rows`, `Mdp.OnlineStats.timediff_batch_pred`, `Mdp.Pca.pca_outputs`, `Mdp.Pca.pca_optimal`, `Mdp.Pca.pca_number`, `Mdp.Pca.pca_fraction_partial`, `Mdp.Pca.pca_reduce`, `Mdp.Pca.pca_fraction_reduce`, `Mdp.Pca.pca_rounding`, `Mdp.Pca.pca_fraction_constant_violation`, `Mdp.Pca.pca_execute_inverse`, `Mdp.Pca.pca_reconstruction`, `Mdp.Pca.whitening_outputs_partial`, `Mdp.Pca.whitening_inverse`, `Mdp.Pca.whitening_singular`, `Mdp.Sfa.sfa_outputs`, `Mdp.Sfa.sfa_too_many`, `Mdp.Sfa.sfa_slowest`, `Mdp.Sfa.sfa_inverse`, `Mdp.Sfa.sfa2_form`, `Mdp.Sfa.quadform_new`, `Mdp.Sfa.sfa2_outputs`, `Mdp.Sfa.sfa2_slowest`, `Mdp.Sfa.sfa2_output_dim_false`, `Mdp.Quad.extrema_optimal`, `Mdp.Quad.extrema_small`, `Mdp.Quad.extrema_terminates`, `Mdp.Quad.maximize_terminates`, `Mdp.Quad.maximize_terminates_neg`, `Mdp.Quad.extrema_length_false`, `Mdp.Quad.extrema_short`, `Mdp.Symeig.sfa_pca`, `Mdp.Symeig.sfa_svd`, `Mdp.Symeig.pca_correct`, `Mdp.Symeig.svd_correct`, `Mdp.Symeig.pca_error`, `Mdp.Sfa.sfa_rank_output_dim_false`, `Mdp.Sfa.sfa_rank_outputs`, `Mdp.Symeig.blank_drops_first`, `Mdp.Symeig.sfa_ignores_first`, `Mdp.Symeig.sfa_pca_not_slowest_false`, `Mdp.Symeig.blank_finds_constant`, `Mdp.Symeig.blank_correlated`, `Mdp.Symeig.blank_constant_first`, `Mdp.Symeig.fake_correct`, `Mdp.Symeig.plain_solves`, `Mdp.Symeig.clampRange_spec`, `Mdp.Symeig.svd_deficit_stale`, `Mdp.RecExp.expansion`, `Mdp.RecExp.degree_one_partial`, `Mdp.RecExp.rational_degree_one_false`, `Mdp.RecExp.output_dim_partial`, `Mdp.RecExp.check_spec`, `Mdp.RecExp.transform_inside`, `Mdp.RecExp.transform_strictMono`, `Mdp.RecExp.training_data_pass`, `Mdp.RecExp.shift_minimal`, `Mdp.RecExp.argument_changed_false`, `Mdp.NeuralGas.gng_graph`, `Mdp.NeuralGas.gng_positions`, `Mdp.NeuralGas.gng_step`, `Mdp.NeuralGas.gng_insert`, `Mdp.NeuralGas.gng_tlen`, `Mdp.NeuralGas.nearest_neighbor`, `Mdp.NeuralGas.start_changed_false`, `Mdp.NeuralGas.ng_graph`, `Mdp.NeuralGas.ng_one_node`, `Mdp.NeuralGas.ng_step`, `Mdp.NeuralGas.ng_positions`, `Mdp.NeuralGas.ng_scheduled`, `Mdp.NeuralGas.schedule_width`, `Mdp.NeuralGas.schedule_ends`, `Mdp.NeuralGas.ng_ages_partial`, `Mdp.NeuralGas.schedule_ages`, `Mdp.NeuralGas.ng_ages_false`, `Bi.Layer.layer_run_partial`, `Bi.Layer.layer_stop_copies`, `Bi.Layer.layer_stop_shared`, `Bi.Layer.trailing_columns_false`, `Bi.Layer.messages_pass`, `Bi.Layer.outgoing_message`, `Bi.Layer.copies_same`, `Bi.Layer.incoming_flag`, `Bi.Layer.outgoing_flag`, `Bi.Layer.id_flag_ignored_false`, `Bi.Layer.layer_execute`, `Bi.Layer.switch_execute`, `Bi.Layer.switch_low_index_refused`, `Bi.Layer.switch_inverse_partial`, `Bi.Layer.switch_inverse_violation`, `Bi.FlowNode.flownode_execute_partial`, `Bi.FlowNode.flownode_flat`, `Bi.FlowNode.addressed_inverse_false`, `Bi.FlowNode.one_node_request_kept_false`, `Bi.FlowNode.train_refines`, `Bi.FlowNode.train_flownode`, `Bi.FlowNode.stop_refines`, `Bi.Coroutine.reset_clears`, `PHinet.net_fork_join_exec`, `PHinet.fork_join_exec`, `PHinet.switch_back_merges`, `PHinet.copies_fork_join`, `PHinet.join_other_mode`, `Bi.Gradient.flow_gradient`, `Bi.Gradient.nodes_good`, `Bi.Gradient.layer_good`, `Bi.Gradient.identity_good`, `Bi.Gradient.sfa_good`, `Bi.Gradient.quad_good`, `Bi.Gradient.sfa2_good`, `Bi.Gradient.gradient_refused`, `Bi.Gradient.clone_refused`, `Bi.Gradient.layer_refuses`, `Bi.Gradient.clone_first_false`, `Bi.Gradient.same_input_error`, `Bi.Gradient.same_input_false`, `Mdp.Online.incremental_chunks`, `Mdp.Online.incremental_cuts`, `Mdp.Online.online_layer_train`, `Mdp.Online.same_input_online_layer_train`, `Mdp.Online.online_layer_train_node`, `Mdp.Online.online_layer_execute_partial`, `Mdp.Online.clone_online_layer_train`, `Mdp.Online.clone_online_layer_execute`, `Mdp.Gsfa.regular_graph`, `Mdp.Gsfa.unlabeled_graph`, `Mdp.Gsfa.dict_graph`, `Mdp.Gsfa.mirror_graph`, `Mdp.Gsfa.slow_mirror_graph`, `Mdp.Gsfa.truncating_graph`, `Mdp.Gsfa.clustered_graph`, `Mdp.Gsfa.clustered_graph_no_loops`, `Mdp.Gsfa.serial_graph`, `Mdp.Gsfa.clustered_list_graph`, `Mdp.Gsfa.classification_graph`, `Mdp.Gsfa.mixed_graph`, `Mdp.Gsfa.array_graph_partial`, `Mdp.Gsfa.array_graph_false`, `Mdp.Gsfa.mirror_fast_slow`, `Mdp.Gsfa.fast_window_partial`, `Mdp.Gsfa.fast_window_false`, `Mdp.Gsfa.window_graph_partial`, `Mdp.Gsfa.fast_window_graph_partial`, `Mdp.Gsfa.window_average_false`, `Mdp.Gsfa.window_refused`, `Mdp.Gsfa.modes_graphs_partial`, `Mdp.Gsfa.modes_block_size_false`, `Mdp.Gsfa.clustered_list_error`, `Mdp.Gsfa.classification_short_false`, `Mdp.Gsfa.classification_long`, `Mdp.Gsfa.serial_single_false`, `Mdp.Gsfa.dual_serial_graph`, `Mdp.Gsfa.mixed_refused_false`, `Mdp.Gsfa.gsfa_outputs`, `Mdp.Gsfa.fix_weighted`, `Mdp.Gsfa.gsfa_slowest`, `Mdp.Gsfa.classification_order`, `Mdp.Gsfa.join_graphs`, `Mdp.Ccipca.amnesic_sum`, `Mdp.Ccipca.amnesic_default`, `Mdp.Ccipca.amnesic_average`, `Mdp.Ccipca.components_unit`, `Mdp.Ccipca.whitening_unit`, `Mdp.Ccipca.train_total`, `Mdp.Ccipca.first_component_average`, `Mdp.Ccipca.reduced_partial`, `Mdp.Ccipca.reduced_false`, `Mdp.Ccipca.execute_take`, `Mdp.Ccipca.inverse_execute`, `Mdp.Ccipca.inverse_n_false`, `Mdp.Ccipca.inverse_false`, `Mdp.Ccipca.property_vectors`, `Mdp.Ccipca.property_kept`, `Mdp.Ccipca.constructor_vectors_false`, `Mdp.Ccipca.minor_constructor_false`, `Mdp.Ccipca.batch_refused`, `Mdp.Ccipca.minor_unit`, `Mdp.Ccipca.first_step`, `Mdp.Ccipca.component_step`, `Mdp.Ccipca.component_projection`, `Mdp.Ccipca.components_fixed`, `Mdp.Ccipca.minor_fixed`, `Mdp.Ccipca.minor_fixed_converse`, `Mdp.Ccipca.minor_total`, `Mdp.Ccipca.minor_eigenvalue_false`, `Mdp.Ccipca.minor_converges`, `Mdp.IncSfa.first_chunk`, `Mdp.IncSfa.later_chunk`, `Mdp.IncSfa.zero_train`, `Mdp.IncSfa.chunks_false`, `Mdp.IncSfa.derivative`, `Mdp.IncSfa.new_episode`, `Mdp.IncSfa.rows_within`, `Mdp.IncSfa.rows_episode`, `Mdp.IncSfa.batch_chunk`, `Mdp.IncSfa.execute_spec`, `Mdp.IncSfa.centered_spec`, `Mdp.IncSfa.keep_mean_false`, `Mdp.Ica.cubica_orthogonal`, `Mdp.Ica.cubica_data`, `Mdp.Ica.cubica_sweeps`, `Mdp.Ica.cubica_reported`, `Mdp.Ica.cubica_angle_partial`, `Mdp.Ica.cubica_angle_false`, `Mdp.Ica.cubica_separated`, `Mdp.Ica.jade_orthogonal`, `Mdp.Ica.jade_ends`, `Mdp.Ica.jade_stationary_partial`, `Mdp.Ica.jade_stationary_violation`, `Mdp.Ica.jade_angle_partial`, `Mdp.Ica.jade_angle_false`, `Mdp.Ica.jade_matrices_partial`, `Mdp.Ica.jade_matrices_diff`, `Mdp.Ica.jade_matrices_false`, `Mdp.Ica.jade_criterion_false`, `Mdp.Ica.jade_separated`, `Mdp.Ica.fast_defl_partial`, `Mdp.Ica.fast_defl_orthogonal`, `Mdp.Ica.fast_zero_false`, `Mdp.Ica.fast_fine`, `Mdp.Ica.fast_guess`, `Mdp.Ica.fast_guess_false`, `Mdp.Ica.fast_separated`, `Mdp.Ica.nonlinearity_derivative`, `Mdp.Ica.nonlinearity_constant`, `Mdp.Ica.fast_stabilised`, `Mdp.Ica.fast_stabilised_symm`, `Mdp.Ica.fast_symm`, `Mdp.Ica.ica_white`, `Mdp.Ica.ica_node`, `Mdp.Ica.cubica_node`, `Mdp.Ica.cubica_chunks`, `Mdp.Ica.cubica_orth`, `Mdp.Ica.jade_orth`, `Mdp.Ica.ica_inverse`, `Mdp.Ica.ica_whitened`, `Mdp.Ica.ica_projmatrix`, `Mdp.Ica.ica_recmatrix`, `Mdp.Ica.ica_recmatrix_white`, `Mdp.Ica.ica_reduce_false`, `Mdp.Ica.telescope_spec`, `Mdp.Ica.telescope_partial`, `Mdp.Ica.powers_spec`, `Mdp.Ica.telescope_false`, `Mdp.Ica.retry_false`, `Mdp.Rbm.rbm_energy`, `Mdp.Rbm.rbm_hidden`, `Mdp.Rbm.rbm_visible`, `Mdp.Rbm.rbm_execute`, `Mdp.Rbm.rbm_labels`, `Mdp.Rbm.rbm_labels_sum`, `Mdp.Rbm.rbm_labels_sample`, `Mdp.Rbm.rbm_labels_execute`, `Mdp.Rbm.rbm_stationary`, `Mdp.Rbm.rbm_train`, `Mdp.Rbm.rbm_train_labels`, `Mdp.Rbm.rbm_free`, `Mdp.Rbm.rbm_gradient`, `Mdp.Rbm.rbm_updates_false`, `Mdp.Rbm.rbm_empty_false`, `Mdp.Rbm.rbm_steps`, `Mdp.Rbm.rbm_decay`, `Bi.Par.parallel_biflow_execute_partial`, `Bi.Par.parallel_biflow_execute_back`, `Bi.Par.parallel_biflow_train_partial`, `Bi.Par.one_scheduler_partial`, `Mdp.Ica.fast_step`, `Mdp.Ica.fast_step_size`, `Mdp.Ica.fast_long`, `Mdp.Ica.fast_symm_switch`, `Mdp.Ica.fast_newton`, `Mdp.Ica.fast_failures`, `Mdp.Online.oflownode_train`, `Mdp.Online.oflownode_train_refused`, `Mdp.Online.oflownode_train_as_flow`, `Mdp.Online.oflownode_trained_node`, `Mdp.Online.flownode_history`, `Mdp.Online.oflownode_stop`, `Mdp.Online.oflownode_stop_refused`, `Mdp.Online.flownode_init`, `Mdp.Online.ringnode_train`, `Mdp.Online.ringnode_train_as_flow`, `Mdp.Online.ringnode_stop_partial`, `Mdp.Online.ringnode_stop_refused`, `Mdp.Factor.fa_likelihood`, `Mdp.Factor.em_increases`, `Mdp.Factor.fa_refuses_partial`, `Mdp.Factor.fa_refuses_large`, `Mdp.Factor.fa_refuses_violation`, `Mdp.Factor.fa_refused_unusable`, `Mdp.Factor.fa_stops`, `Mdp.Factor.fa_execute`, `Mdp.Factor.fa_em`, `Mdp.Factor.fa_generate_plain`, `Mdp.Factor.fa_generate`, `Mdp.Fda.fda_outputs`, `Mdp.Fda.fda_best`, `Mdp.Fda.fda_best_set`, `Mdp.Fda.fda_inverse`, `Mdp.Flow.recovery_same_train`, `Mdp.Flow.train_dump`, `Mdp.Flow.resume_partial`, `Mdp.Flow.saved_node`, `Mdp.Eta.eta_value`, `Mdp.Eta.eta_none`, `Mdp.Eta.eta_order`, `Mdp.Eta.eta_affine`, `Mdp.Eta.eta_overlap`, `Mdp.Eta.eta_single`, `Mdp.Eta.eta_cut_false`, `Mdp.Eta.eta_wave`, `Mdp.Eta.eta_wave_bounds`, `Mdp.Eta.eta_sine_false`, `Mdp.Eta.eta_sfa`, `Mdp.Eta.eta_sfa_false`, `Mdp.Copy.flow_copy`, `Mdp.Copy.node_copy`, `Mdp.Copy.apart_independent`, `Mdp.Copy.flow_copy_error`, `Mdp.Copy.flownode_copy`, `Mdp.Copy.flownode_copy_succeeds`, `Mdp.Copy.flownode_copy_changes_false`, `Mdp.Copy.flownode_copy_often_false`, `Mdp.Copy.flownode_copy_crash_false`, `Mdp.Copy.flownode_copy_sharing_false`, `Mdp.Copy.node_add_flow_copies`, `Mdp.Copy.node_add_flow_false`, `Mdp.Copy.binode_add_flow_copies`, `Mdp.Rand.random_rot_rotation`, `Mdp.Rand.random_rot_zero_violation`, `Mdp.Rand.random_rot_empty`, `Mdp.Rand.symrand_spec`, `Mdp.Rand.mult_diag_spec`, `Mdp.Rand.symrand_complex_partial`, `Mdp.Rand.symrand_complex_false`, `Mdp.Routines.rotate_spec`, `Mdp.Routines.rotate_add`, `Mdp.Routines.rotate_degrees`, `Mdp.Routines.permute_spec`, `Mdp.Routines.permute_twice`, `Mdp.Routines.cov2_value`, `Mdp.Routines.cov2_partial`, `Mdp.Routines.cov2_false`, `Mdp.Routines.cov_maxima_spec`, `Mdp.Routines.cov_maxima_sorted`, `Mdp.Routines.cov_maxima_permutation`, `Mdp.Routines.sqrtm_spec`, `Mdp.Routines.sqrtm_none`, `Mdp.Routines.gabor_value`, `Mdp.Routines.gabor_centre`, `Mdp.Routines.gabor_default_partial`, `Mdp.Routines.gabor_default_false`, `Mdp.Routines.izip_spec`, `Mdp.Routines.izip_length`, `Mdp.Routines.sign_round_trip`, `Mdp.Nipals.nipals_orthonormal`, `Mdp.Nipals.nipals_variance`, `Mdp.Nipals.nipals_nan_last`, `Mdp.Nipals.nipals_uncorrelated`, `Mdp.Nipals.nipals_uncorrelated_exact`, `Mdp.Nipals.nipals_eigenvectors`, `Mdp.Nipals.nipals_total`, `Mdp.Nipals.nipals_explained_partial`, `Mdp.Nipals.nipals_explained_false`, `Mdp.Nipals.nipals_desired_partial`, `Mdp.Nipals.nipals_desired_false`, `Mdp.Nipals.nipals_nan_partial`, `Mdp.Nipals.nipals_constant_violation`, `Mdp.Nipals.nipals_uncorrelated_violation`, `Mdp.Nipals.nipals_order_false`, `Mdp.Xsfa.xsfa_schedule`, `Mdp.Xsfa.xsfa_schedule_end`, `Mdp.Xsfa.xsfa_phases`, `Mdp.Xsfa.normalize_outputs`, `Mdp.Xsfa.normalize_variance`, `Mdp.Xsfa.normalize_inverse`, `Mdp.Xsfa.normalize_constant_violation`, `Mdp.Xsfa.projection_train`, `Mdp.Xsfa.projection_row`, `Mdp.Xsfa.projection_orthogonal`, `Mdp.Xsfa.projection_zero_refused`, `Mdp.Xsfa.xsfa_sources_kept`, `Mdp.Xsfa.xsfa_source`, `Mdp.Rbf.rbf_isotropic`, `Mdp.Rbf.rbf_anisotropic`, `Mdp.Rbf.rbf_isotropic_anisotropic`, `Mdp.Rbf.rbf_single`, `Mdp.Rbf.rbf_refused`, `Mdp.Rbf.rbf_integer_false`, `Mdp.Rbf.gas_expansion`, `Mdp.Rbf.gas_coincident_violation`, `Mdp.Rbf.general_values`, `Mdp.Rbf.general_repeated_violation`, `Mdp.Conv.conv_values`, `Mdp.Conv.conv_values_flat`, `Mdp.Conv.conv_boundary`, `Mdp.Conv.conv_valid`, `Mdp.Conv.conv_textbook`, `Mdp.Conv.conv_refused`, `Mdp.Conv.conv_other_shape`, `Mdp.Conv.conv_valid_refused`, `Mdp.Conv.conv_filters_partial`, `Mdp.Conv.conv_filters_violation`, `Mdp.Conv.conv_filters_repeated_violation`, `Mdp.Lle.lle_weights`, `Mdp.Lle.lle_weights_auto`, `Mdp.Lle.lle_refused`, `Mdp.Lle.lle_training_succeeds`, `Mdp.Lle.lle_all_points_violation`, `Mdp.Lle.lle_execute`, `Mdp.Lle.lle_execute_succeeds`, `Mdp.Lle.lle_execute_rows_partial`, `Mdp.Lle.lle_execute_rows_violation`, `Mdp.Lle.lle_training_points_violation`, `Mdp.Lle.lle_execute_trace_violation`, `Mdp.Lle.lle_embedding_partial`, `Mdp.Lle.lle_few_points_violation`, `Mdp.Lle.lle_centred_violation`, `Mdp.Lle.lle_invariant`, `Mdp.Lle.lle_variance`, `Mdp.Lle.mgs_ortho`, `Mdp.Lle.mgs_divides_by_zero`, `Mdp.Lle.hlle_few_neighbours_violation`, `Mdp.Lle.hlle_embedding`, `Mdp.Lle.hlle_refused`, `Mdp.Lle.hlle_training_succeeds`, `Mdp.Lle.hlle_all_points_violation`, `Mdp.Lle.hlle_flat`, `Mdp.Isfa.isfa_contrast_of_angle`, `Mdp.Isfa.isfa_best_angle`, `Mdp.Isfa.isfa_rotation`, `Mdp.Isfa.isfa_improves_partial`, `Mdp.Isfa.isfa_sweep_partial`, `Mdp.Isfa.isfa_improves_false`, `Mdp.Isfa.isfa_outputs`, `Mdp.Isfa.isfa_white`, `Mdp.Isfa.isfa_round_trip`, `Mdp.Isfa.isfa_two_partial`, `Mdp.Isfa.isfa_two_converges`, `Mdp.Isfa.isfa_two_limit_two`, `Mdp.Isfa.isfa_one_iteration_violation`, `Mdp.Isfa.tdsep_one_lag_violation`, `Mdp.Isfa.tdsep_objective`, `Mdp.Isfa.tdsep_two_partial`, `Mdp.Isfa.tdsep_separable_violation`, `Mdp.Isfa.isfa_terminates`, `Mdp.Isfa.isfa_limit_violation`, `Mdp.Isfa.isfa_one_signal_violation`, `Mdp.Isfa.isfa_weights`, `Mdp.Isfa.isfa_weights_refused`, `Mdp.Isfa.isfa_number_weight_violation`, `Mdp.Isfa.isfa_lags`, `Mdp.Isfa.isfa_whitened_dims`, `Mdp.Isfa.isfa_outer_space_violation`, `Mdp.Isfa.isfa_given_list_violation`, `Mdp.QuadInv.invariances_spec`, `Mdp.QuadInv.invariances_span`, `Mdp.QuadInv.invariances_extremum`, `Mdp.QuadInv.curvature_average`, `Mdp.Symeig.reg_correct`, `Mdp.Symeig.reg_succeeds`, `Mdp.Symeig.reg_deficit_violation`, `Mdp.Symeig.reg_deficit_case`, `Mdp.Symeig.reg_constant_violation`, `Mdp.Switchboard.factory_fits`, `Mdp.Switchboard.factory_fits_iff`, `Mdp.Switchboard.factory_route`, `Mdp.Switchboard.factory_receptive_field`, `Mdp.Switchboard.factory_image`, `Mdp.Classifier.bi_execute`, `Mdp.Classifier.normalizer_round_trip`, `Mdp.Progress.transparent_partial`, `Mdp.Progress.transparent_iterator_partial`, `Mdp.Progress.transparent_last_partial`, `Mdp.Progress.empty_violation`, `Mdp.Progress.items_violation`, `Mdp.Progress.items_first_violation`, `Mdp.Progress.bar_length`, `Mdp.Progress.bar_monotone`, `Mdp.Progress.bar_left`, `Mdp.Progress.bar_overflow_violation`, `Mdp.Progress.bar_narrow_violation`, `Mdp.Introspect.dig_ends`, `Mdp.Introspect.size_text`, `Mdp.TempDir.tempdir_link_violation`, `Mdp.Noise.noise_execute_partial`, `Mdp.Noise.normal_execute_partial`, `Mdp.Noise.noise_integer_violation`, `Mdp.Noise.noise_type_violation`, `Bi.sender_sends`, `Bi.sender_delivered`, `Bi.sender_passed_on`, `Bi.sender_separator_violation`, `Mdp.Config.config_info`, `Mdp.PP.pp_results`, `Mdp.PP.pp_open_tasks`, `Mdp.PP.pp_queue_bound`, `Mdp.PP.pp_progress`, `Mdp.PP.pp_failed_task_blocks`, `Mdp.PPSlaves.kill_slaves_exact`, `Mdp.PPSlaves.started_slaves`, `Mdp.PPSlaves.kill_slaves_colon_refused`, `Mdp.PPSlaves.starts_all_partial`, `Mdp.PPSlaves.starts_all_false`, `Mdp.PPSlaves.kill_filename_refused`, `Mdp.PPSlaves.autodetect_refused`, `Mdp.PPSlaves.python3_refused`, `Mdp.PPSlaves.failed_script_taken_for_running`, `Mdp.Scikits.action_exactly_once`, `Bi.Autogen.generated_signature`, `Bi.Autogen.generated_refuses`, `Bi.Autogen.varargs_refused`, `Mdp.Templet.compile_render`, `Mdp.Templet.escape_round_trip`, `Mdp.Templet.plain_text`, `Mdp.Templet.realign_spec`, `Mdp.LibSvm.kernel_spec`, `Mdp.LibSvm.classifier_spec`, `Mdp.LibSvm.init_spec`, `Mdp.LibSvm.init_bad_kernel`, `Mdp.LibSvm.init_bad_param`, `Mdp.Shogun.options_history`, `Mdp.Shogun.setOptions_get`, `Mdp.Shogun.own_options_partial`, `Mdp.Shogun.kernel_named_options`, `Mdp.Shogun.text_choice`, `Mdp.Shogun.set_ok`, `Mdp.Shogun.set_fails_forgets`, `Bi.Snapshots.read_in_order_iff`, `Bi.Snapshots.slide_table`, `Mdp.ODict.ordered_dict`, `Mdp.ODict.popitem_spec`, `Mdp.Backend.version_order_partial`, `Mdp.Meta.wrappers_transparent`, `Mdp.Meta.build_fails_iff`, `Mdp.Meta.extension_effective_partial`, `Mdp.Meta.extension_bypassed_violation`, `Mdp.VartimeSfa.vartime_sfa_partial`, `Mdp.VartimeSfa.vartime_sfa_separate_partial`, `Mdp.VartimeSfa.uninitialised_violation`, `Mdp.VartimeSfa.two_rows_violation`, `Mdp.VartimeSfa.parallel_separate`, `Mdp.VartimeSfa.parallel_violation`, `Mdp.IGsfa.inverse_execute`, `Mdp.IGsfa.inverse_exact`, `Mdp.IGsfa.slow_ignored`, `Mdp.IGsfa.slow_part_variance`, `Mdp.IGsfa.explained_variance`, `Mdp.IGsfa.sizes_sum`, `Mdp.IGsfa.slow_by_threshold`, `Mdp.IGsfa.slow_by_number`, `Mdp.IGsfa.execute_width_partial`, `Mdp.IGsfa.inner_dim`, `Mdp.IGsfa.scaling_refused`, `Mdp.IGsfa.qr_width_violation`, `Mdp.IGsfa.reduce_execute`, `Mdp.IGsfa.reduce_explained`, `Mdp.Gsfa.graph_delta_spec`, `Mdp.Gsfa.comp_delta_spec`, `Mdp.Gsfa.hamming_bits`, `Mdp.DefaultFork.fork_partial`, `Mdp.DefaultFork.fork_same_arguments_partial`, `Mdp.DefaultFork.name_clash_violation`, `Mdp.Gsfa.old_array_graph`, `Mdp.Gsfa.graph_agrees_partial`, `Mdp.Gsfa.graph_agrees_violation`, `Mdp.Gsfa.compact_graph`, `Mdp.Gsfa.compact_default`, `Mdp.Gsfa.compact_full`, `Mdp.Gsfa.compact_full_violation`, `Mdp.Gsfa.compact_list`, `Mdp.Gsfa.compact_refused`, `Mdp.Gsfa.single_class_violation`, `Mdp.Gsfa.smart2_graph`, `Mdp.Gsfa.smart2_consistent`, `Mdp.Gsfa.smart2_negative_violation`, `Mdp.Gsfa.smart2_moment_violation`, `Mdp.Gsfa.smart_refused`, `Mdp.Gsfa.smart3_sums_partial`, `Mdp.Gsfa.smart3_average_violation`, `Mdp.Gsfa.smart3_scaled_violation`, `Mdp.Html.show_flow_page`, `Mdp.Html.show_flow_valid`, `Mdp.Html.double_rect_violation`, `Mdp.ScikitsNode.sk_trained`, `Mdp.ScikitsNode.sk_output_dim_violation`, `Mdp.ScikitsNode.sk_fit_failed`, `Mdp.ScikitsNode.sk_retry_violation`, `Mdp.ScikitsNode.sk_supervised_violation`, `Mdp.Symeig.ldl_correct`, `Mdp.Symeig.sfa_ldl`, `Mdp.Symeig.ldl_threshold_violation`, `Mdp.Sfa.sfa_tries`, `Mdp.Sfa.plain_full`, `Mdp.Sfa.pca_full`, `Mdp.Sfa.svd_full`, `Mdp.Sfa.reg_full`, `Mdp.Sfa.reg_retry_restored`, `Mdp.Sfa.reg_retry_drift`, `Mdp.Sfa.reg_retry_violation`, `Mdp.Sfa.ldl_retry_keeps`, `Mdp.Sfa.ldl_retry_violation`, `Mdp.Preimage.residuals_objective`, `Mdp.Preimage.pseudo_inverse_improves`, `Mdp.Preimage.invert_get`, `Mdp.Preimage.nonlinear_improves`, `Mdp.Preimage.integer_hint_violation`, `Mdp.Repr.node_repr`, `Mdp.Repr.bi_repr`, `Mdp.Repr.flow_repr`, `Mdp.IncSfa.exec_inverse`, `Mdp.IncSfa.inverse_nearest`, `Mdp.IncSfa.inverse_violation`, `Mdp.Saving.robust_pickle`, `Mdp.Saving.robust_write`, `Mdp.IcaOptions.ica_options`, `Mdp.IcaOptions.isfa_options`, `Mdp.IcaOptions.xsfa_kwargs_violation`, `Mdp.ODict.items_spec`, `Mdp.ODict.copy_spec`, `Mdp.ODict.pickle_spec`, `Mdp.ODict.fromkeys_spec`, `Mdp.ODict.setdefault_spec`, `Mdp.ODict.pop_spec`, `Mdp.ODict.eq_ordered_spec`, `Mdp.ODict.eq_dict_spec`, `Mdp.ODict.eq_transitive_violation`, `Mdp.Fixup.fixup_ends`, `Mdp.Fixup.fixup_spec`, `Mdp.Bi.Slides.getBody_page`, `Mdp.Bi.Slides.execution_slides`, `Mdp.Bi.Slides.execution_sections_refused`, `Mdp.Bi.Slides.training_slides`, `Mdp.Bi.Slides.no_css_violation`, `Mdp.Rng.rng_reproducible`, `Mdp.Rng.rng_shared`, `Mdp.Rng.rng_order`, `Mdp.Rng.train_again`, `Mdp.Rng.new_generators`, `Mdp.Rng.inner_generators_violation`, `Mdp.Setup.dependencies_partial`, `Mdp.Setup.disabled_import_violation`, `Mdp.Setup.libsvm_disabled`, `Mdp.Setup.pp_python3`, `Mdp.Setup.pp_secret`, `Mdp.Setup.dtypes_partial`, `Mdp.Setup.dtypes_violation`, `Mdp.TraceHtml.trace_tables`, `Mdp.TraceHtml.trace_ids`, `Mdp.TraceHtml.trace_current`, `Mdp.TraceHtml.trace_same_ids`, `Mdp.TraceData.slide_page`, `Mdp.TraceData.stop_page`, `Mdp.TraceData.slide_nested_partial`, `Mdp.TraceData.slide_raises`, `Mdp.TraceData.slide_nested_violation`, `Mdp.TraceData.stop_message_violation`, `Mdp.Slideshow.image_slideshow_accepts`, `Mdp.Slideshow.section_links`, `Mdp.Slideshow.load_shows`, `Mdp.Slideshow.next_shows`, `Mdp.Slideshow.previous_shows`, `Mdp.Slideshow.goto_shows`, `Mdp.Slideshow.nextSection_shows`, `Mdp.Slideshow.previousSection_shows`, `Mdp.Slideshow.slideshow_buttons`, `Mdp.Slideshow.slideshow_consistent`, `Mdp.Slideshow.autoplay_loop`, `Mdp.Slideshow.autoplay_end`, `Mdp.Slideshow.delay_nonneg`, `Mdp.Slideshow.autoplay_timers_partial`, `Mdp.Slideshow.autoplay_timers_violation`, `Mdp.BiArgs.chunks_in_order`, `Mdp.BiArgs.short_messages_violation`, `Mdp.BiArgs.messages_only_partial`, `Mdp.BiArgs.train_lists`, `Mdp.BiArgs.train_message_count_refused`, `Mdp.BiPhases.phases_repeat`, `Mdp.BiPhases.iterator_refused`, `Mdp.BiPhases.iterator_rest_violation`, `Mdp.BiPhases.parallel_stop_missing`, `Bi.Autogen.module_complete`, `Bi.Autogen.module_no_default_refused`, `Bi.Autogen.module_alias_refused`, `Mdp.DigText.dig_text`, `Mdp.DigText.dig_text_empty_violation`, `Bi.Page.training_page`, `Bi.Page.images_page`, `Bi.Page.execution_page`, `Bi.Page.execution_browser_empty_violation`, `Bi.Page.execution_browser_blocks_violation`, `Bi.Page.training_none_violation`, `Bi.Page.images_refused_violation`, `Mdp.Xhtml.xhtml_none_left`, `Mdp.Xhtml.xhtml_replaces`

