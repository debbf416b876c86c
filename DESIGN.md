# Formal model of SCOREC/EnGPar in Lean 4 — design

Status of each claim is in `MANIFEST.json`; the wrong-program experiments are in `seeded/LOG.jsonl`.

## 1. Layout

* `lean/Verif/<Area>/Model*.lean` – the model: total computable functions, one per C/C++ function,
  each with a comment citing file and lines in `/repo`.
* `lean/Verif/<Area>/Spec*.lean` – small independent specifications (what a user would say).
* `lean/Verif/<Area>/Lemmas*.lean` – helper lemmas.
* `lean/Verif/<Area>/Props*.lean` – the property theorems and, next to each of them, an `example`
  showing that a concrete non-trivial case meets its hypotheses.

Areas: `Pcu` (message buffer, AA tree, ordering, collectives, phase protocol, file numbers),
`Agi` (graph construction, handles, iteration, residence, tags, migration, file I/O),
`Part` (diffusive load balancing, queue, selector, metrics, ParMETIS, Zoltan), `Io` (binary graph loader), `Mesh` (graphs of meshes).

## 2. Modelling conventions

* `gid_t`, `lid_t`, `part_t` are unbounded `Nat`/`Int`; the exception is everything that is about width
  (byte swapping, 32-bit truncation in the file format), which uses `BitVec`/`% 2^32`.
* `wgt_t` (`double`) is modelled by an exact ordered field (`Rat`) or an arbitrary commutative monoid;
  rounding is not modelled.
* Undefined behaviour (out of bounds access, NULL dereference) and non-termination are explicit outcomes
  (`Option`/`Except`, or fuel running out); a function is never totalised by a silent default.
* Processes are indexed by `Fin n`/`Nat < n`; a bulk-synchronous exchange is modelled by the list of messages
  each part receives in *some* order (all orders quantified); that this is what the PCU layer provides is itself
  property C28, proved about a small-step model of `pcu_msg.c`.

## 3. Per-property plan

| id | model | proof |
|----|-------|-------|
| C01 | `getVertex`,`getEdge`, decoding | arithmetic with `/` and `%` |
| C02 | `constructVerts` as a fold over the gid list, `vtx_mapping` as a finite map | induction on the list |
| C03–C05 | `constructEdges` (both modes) as the code's loops over arrays: counting, prefix sums, cursor fill | loop invariants for prefix sums and cursor fill; refinement to filter/map over the input list |
| C06,C07 | same; `u` as the code's loop with fuel | invariant `deg[low] ≤ e < deg[high]` |
| C08 | same | hypergraph: proved; traditional: negation with witness, partial theorem for grouped input |
| C09 | iterator state machines | induction on the remaining range |
| C10 | residence loops over pins | induction on the pin list; self-loop case of traditional graphs explicit |
| C11 | `checkValidity` as a list of checks | from C03–C05 invariants |
| C12 | global sum over parts of locally counted edges | double counting: least resident part |
| C13 | vev/eve construction | proved for type 0 (edges of traditional graphs: `Part/SecondTrad`, what leaves either end); negation with witness for other types |
| C14 | tag arrays | list update lemmas; the value-level tags of the other models: `TagValueProps` |
| C15 | request/response exchange | permutation-invariant fold |
| C16 | plan = tag array + vector | invariant, refinement to a map |
| C17,C18,C21 | distributed state = per-part vertex tables, `migrate` as bulk-synchronous step | permutation/multiset reasoning, induction over histories. Twice: total correctness for one-type hypergraphs (`MigProps`), and for every graph, conditional on the run returning (`AnyProps`, invariant on the vertex tables only) |
| C19,C20 | per-part edge tables | invariant `Consistent`; negation witnesses for the multi-type and the traditional case; for traditional graphs `TradPart/TradMig/TradRound/TradProps` invert a migration that returns (`MigTrace`) and prove by counting which edges every part has afterwards (`c20_edges_partial`) |
| C22 | weight-migration | sum over parts; negation with witness for arrival |
| C23,C24 | byte-list writer/reader | parser-inverse induction |
| C25 | buffer as byte array + size + capacity | refinement to a byte list |
| C26 | AA tree exactly as in `pcu_aa.c` | AA invariant, ordered-set refinement, depth bound |
| C27 | ordering layer on top of C26 | in-order traversal is sorted permutation |
| C28,C29,C32 | small-step protocol model with network multiset | inductive invariants over all executions |
| C30,C31 | pcu_coll patterns as recursive rank programs | strong induction over bit levels, all N |
| C33 | `targets` over per-part sides/weights (`TargetProps`; traditional graphs: `TargetTrad`, `WBalTrad`) | induction over the loops; counterexamples for the sum bound; for traditional graphs the shares are counted edges |
| C34 | `sides` over edges and residence | sum over edge list regrouped by part |
| C35 | `trim`/`cancel` as offers, accept loop, per-vertex cancel loop (`Trim*`, `Accept*`, `Cancel*`) | loop invariants per dimension, composed over all parts; traditional graphs in `TrimTrad*`, where edge dimensions get the extra term `innerWeight` |
| C36 | `select` with cavity, `selectDisconnected` (`Select*`), after either queue (`QKind`) | invariant over the queue sweep; the same invariant for traditional graphs (`SelectTrad*`) |
| C37 | balancer loop with an oracle for each step | induction on iteration bound |
| C38 | ring buffer | refinement to the last three pushed values |
| C39,C40 | metrics; flood fill over edges | list sums; reachability |
| C41,C42 | queue algorithms | permutation/sortedness |
| C43 | byte ranges, part file, bucketed all-to-all (`Bin*`) | `Nat` division lemmas; bucket-sort invariant |
| C44 | numbering by exclusive scan, ghost tag exchange, CSR fill (`Parmetis*`) | CSR rows = neighbour sets via C15; one proof over an abstract symmetric neighbour relation (`ParmetisGen`), instantiated for traditional graphs (`ParmetisSym`) and for any edge weights (`ParmetisAny`); sums of non-negative weights truncate term by term |
| C45 | weight selector and plan map (`WSel*`; traditional graphs: `WSelTrad`, `WBalTrad`) | invariant over sweeps |
| C46 | `Agi/TimersModel`: vector-backed timers; `Agi/StatsModel`: reductions over processes, the balancer's four timers, `printMigrationStats` | negation in the strict reading; with reserved memory accessible, invariants over additions and updates (`c46_timers_partial`, `c46_found_partial`), and the report over any number of processes and migrations (`c46_report_partial`, `c46_averages_partial`) |
| C47,C48 | small state changes on the graph | frame lemmas |
| C49 | `evaluatePartition` | arithmetic; witnesses |
| C50 | `create_dist_csr` | bucket-sort invariant; witnesses |
| C51 | Zoltan's callbacks filling arrays Zoltan allocates, then reads (`Zoltan*`) | states of the loops given explicitly; exact characterisation of when the rows are defined |
| C52 | the whole balancer: `DiffuseModel` composes sides, weights, targets, queue, selector, trim/cancel and `migrate` in the loop of `BalancerModel`; what is not determined (delivery, hash order) is an environment per step | state-based versions of C33–C36 (`Spot`), the migration invariant of C17–C19, and an invariant of the run: the graph is held, finished criteria are within their limit |
| C53 | the loop with arbitrary planning and migration | a step with non-zero code changes nothing; a concrete run ends worse than it began |
| C54 | `splitPlans`, `changeOwners`, the switch of communicator (`self`, `peers`), empty graphs on new ranks, `migrate`; the partitioner is an arbitrary function with ParMETIS' contract | parts renumbered by the rank list and empty parts satisfy the migration invariant; one migration (`apply_spec`); any edge weights (`ParmetisAny`); partial: one edge type. The Zoltan method (`SplitZoltan*`): the callbacks of all ranks, Zoltan an arbitrary function with its contract; exact for hypergraphs. Traditional graphs (`SplitTrad`): ranks outside the small communicator behave like constructed parts without vertices (`MigBlank`), then `round_trad_ok` with `Told` from symmetry |
| C55 | the same with `getPartition` | positive when owners were not recorded before; `c55_wrong_rank` refutes it otherwise |
| C56 | `createDistanceQueue` with both searches, the disjoint sets, the offsets and the sort (`DistQueue*`) | the specification speaks of distances in a relation (`DistQueueSpec`); a search invariant shared by push and pull, a union-find invariant, an invariant over rounds; partial: hypergraphs, and not the parts of `c56_small_part_ub` |
| C57 | the same model; rounds of the second search, sizes of the disjoint sets, the offsets of the correction | specification: depth and size of a component, `Grouped`, `Shallower` (`DistQueueSpec`); the union-find invariant counts the edges of each set and shows sets are components, a search is no deeper than its component is large, so offsets separate the components; partial as C56 |
| C58 | `WBalModel`: `runStep`, the loop, `balance`, `simplifyPlan` of the weight balancer, over C33/C34 (sides, targets), C45 (plan) and C22 (weight migration) | specification: `Transfers`, `FairStep`, `loadAfter`, `weightAfter`, `netFlow` (`WBalSpec`); one step takes a world with weights W to a world with weights W plus transfers (`wMigrate_world`), induction over the steps; the record is a telescoping sum; partial: two of its claims are false (`c58_wrong_vertex`, `c58_stale_ghost`); the argument only needs that the plans of a step exist (`Plans`), which is shown for hypergraphs (`plans_hyper`) and traditional graphs (`plans_trad`) |
| C59 | `Mesh/MeshModel`: the constructor of `apfGraph` on all parts; the mesh database is a parameter (what its functions tell a part) | specification: consistent distributed mesh `MeshOk`, `pinsIn`, `allEnts`, `ReadsMesh` (`MeshSpec`); each phase of one edge type computes a closed form (`MeshLoops`…`MeshType`), induction over the types, then the iterators read it back (`MeshViews`), double counting for the totals (`MeshTotals`) |
| C60 | the same model with weights, `dofPart` (one edge type from several dimensions, renumbered), `dofTotal`, `dofGraph` | reduction to C59's machinery: the renumbered mesh is consistent if ids do not collide (`dof_ok`); partial: `numGlobalEdges` is the number of parts times too large, and colliding ids make an assertion fail |
| C61 | `writeVTK`: ghost coordinates by two message phases, then the data arrays of each part's file as lists of printed numbers | per part: every iterator loop yields the lists of vertices, edges, pins; the numbers in the connectivity array are resolved against the points; over all parts each incidence belongs to the owner of its pin; partial: traditional graphs, whose cut edges end at points not in the file |
| C62 | kernels as interleavings of the threads' atomic actions (`interleave`, complete for all interleavings), bounded hash map, arrays to and from the device, `kokkosColoring` | invariant over the schedule: the n-th thread to take the counter of an edge writes the n-th place of its row; map never full; rows symmetric, so a correct `graph_color` gives the claim; partial: parts with cut edges are undefined behaviour, other types for vertices wrong |
| C63 | the query functions of zoltan/ZoltanCallbacks.cpp as writes into bounded arrays (`spare`: entries beyond what Zoltan documents), ids through an arbitrary conversion | the loops yield the rows of the degree array, which partition the edges; partial: only traditional graphs whose edges start on the part; every run with two or more vertices is undefined (`c63_run_ub`) |
| C64 | `binGraph::migrate` on all parts: `vcMove` (send, exchange, rebuild), `vcSplit` (shared vertices, the byte copy as pairs of 32-bit words) | relabelling and CSR lemmas of C43 with all received ids owned; buckets are a permutation of the edges; partial: the shared vertices, where every useful call is undefined (`c64_ub`, for all inputs); around the faulty copy, `c64_shared_partial` (who hears of which copies) and, for a copy of the numbers, `c64_put_partial` |
| C65 | the construction calls and `getPartition` of the C interface over memories that may be longer than the lengths passed; keys of the map in an arbitrary order | the vectors read are the lists, so the set-up is `setupAll` of C17-C21; the loop over the keys fills a prefix of the arrays; partial: that migrations return is proved for hypergraphs with one edge type and (`CApiTrad`, under `ToldAll`) traditional graphs, for other graphs it is a hypothesis |
| C66 | the receiving loop of one rank over the calls of C29 (`Recv*`); a loop body is a `Reader` (asks for bytes, looks, goes on); the arrivals are what the phase protocol of C28 delivered | a stream interface proved for both modes (ordering on, off), loop invariant over records and messages, then C28 and sorting identify the result with `exchange` |
| C67 | `PwModel`: `partWeightBalancer` (the graph of the parts and the weight balancer of C58 on it), the second constructor of `Targets`, `updatePartWeight`, `runStep`/`balance` with the option set | the graph of the parts is a traditional graph with equal weights and mutual arcs (`PwPlan`), so C58 for traditional graphs gives the recorded amounts; targets characterised exactly (`PwTargets`); steps and loops as in C52 with the tables as additional state (`PwStep`, `PwRun`, `PwProps`); the iteration limits as in C37 (`PwLimits`: `c67_limits_partial`) |
| C68 | `Log/LogModel`: `engpar_log.cpp` and the reporting code of every operation that reports itself; a graph is reduced to its number of edge types and whether it has original owners | `LogSpec` gives the calls an operation makes as a tree and prints it; one equation per function for open and closed logs alike (`LogLemmas`, `LogRun`), induction over the history (`LogProps`) |
| C69 | `Io/NameModel`: the names as lists of characters with the size of the array, `mkdir_r` over a set of directories | the digits of a rank have no underscore and determine it; an invariant for the loop of `mkdir_r` gives exactly the directories made |
| C70 | `Io/NameModel`: `printStats`, the labels of `evaluatePartition` | the outcome is computed for every input: the text, or undefined when it does not fit |
| C71 | `Support/CommModel`: the table of communicators of MPI, the variables of pcu_pmpi.c, `global_state`, `handlingPCU`, and the operations on them; `CommSpec`: the application's view | a relation between the two, kept by every operation, gives equal answers for every history (`c71_exact`); with the meant `EnGPar_Finalize` for histories that avoid the one bad pattern; the relation also says which communicators exist (`c71_private`) |
| C72 | `Support/MsgModel`: `FILE` objects and the pointers `stdout`, `stderr`, `old_stdout`, `old_stderr`, verbosity, test flag; `MsgSpec`: what a user sees | a relation kept by every operation (`c72_exact`); a second one between the specification as the code behaves and as meant, for histories that avoid the defects (`c72_messages_partial`) |
| C73 | `PCU_Or`/`PCU_And` as operations of the allreduce of C30 (`Pcu/LogicProps`) | from `c30_max`, `c30_min`, for every execution |
| C74 | `Pcu/FilesModel`: ranks as lists of actions and barriers, run by an arbitrary schedule; the disk of C69 | an invariant of every schedule (`FilesSync`: ranks are at most one barrier apart, and who is behind waits), progress and termination; counting residues; which directories are made before the barrier |
| C75 | the models of C11, C10, C39, C40, C13, C62 on the graphs that the model of migration (C17) leaves | `PartDone`, the invariant of migration, is also the hypothesis of the readers' lemmas (`CRep`, `PartRep`, `World`); it now includes the count of pins. One edge type: with two the claim is false (`c19_second_type_lost`, `c19_two_types_stale`) |
| C76 | `Call` (one constructor per function that changes a graph, with all its environment), `Call.run`, `runCalls` (Part/SessionModel), on top of the models of C17, C18, C23, C52, C54, C67 | one invariant, `HoldsG` (all parts together hold the hypergraph at a placement), is proved to be kept by every call (`call_step`), then induction over the session; everything observable follows from the invariant (`shows_done`, `asNew_world`, `partition_done`). `Call.Legal` says what the caller provides in terms of what the graphs show. One edge type; no traditional graphs, no Zoltan: there single calls are already known to break (C19, C22, C55) |
| C77 | `Pcu/SeqModel`: every rank's program is the concatenation of the programs of its calls (C30, C31), with steps for entering and leaving; a receive takes the peer's issued message whatever call it is of | the programs are projections of one global event list and events of different ranks commute (`SeqNet`), so every execution has the results of the sequential one; `proj_match` gives the call of a message; the barrier by lifting to ghost data (sets of ranks) |
| C78 | `Pcu/WholeModel`: the state machines of C28 and C77 together; entering and leaving the collectives `start` and `stop` is what moves a phase, and no barrier contract is assumed | a local invariant says where a rank is (`At`); an execution projects to one of C77 (what ranks contributed is recorded, so contributions may depend on anything) and, because C77 gives the barrier contract, to one of C28; both sets of theorems carry over. Progress: the first remaining event in the global order can happen, or what it waits for can |
| C79 | `Agi/HandleModel.lean`: pointers as 64-bit words in memory bytes, local ids of 32 or 64 bits, options as compiled in | refinement to the numbers of `GraphModel`; overflow of edge handles and an untold byte order are witnesses (`Agi/HandleProps.lean`) |
| C80 | `Part/InputModel.lean`: input objects, setters, `balance`, `split`, deletion; tables of the declarations in C, C++ and Fortran | specification read off the list of calls (`InputSpec`), invariant over histories; a sequence works iff every call is legal; the tables are compared completely, being finite (`InputProps`) |
| C81 | `Pcu/SwitchModel`: processes with a list of stays; in each stay a job of C78 on the communicator's ranks, steps only by processes that are there; duplication and release may wait for any of the others (`dupWaits`, `freeWaits`) | invariant: a rank that has not arrived is fresh, one that has left has an empty program, each stay is an execution of C78; progress by the first stay in the common order; a count of steps. `c81_order_needed` shows why the order is assumed (`crossed` deadlocks) |
| C82 | `Agi/HeapModel`: the heap as a list of blocks with the form of `new`; which pointers of a graph, tags and plans hold which block; every `new` and `delete` of the calls; releasing what is not allocated is undefined | invariant: the heap is a permutation of the blocks of the pointers, of the user and of the lost ones; what the user may do, still holds and what is lost is read off the calls alone (`HeapSpec`); `c82_no_ub`, `c82_memory`, `c82_clean_partial`, `c82_during` for all histories; partial because two calls lose memory |
| C83 | `Part/BalHeapModel`: the blocks of balancers, inputs, sides, weights, targets, queues (iteration, distance with both traversals, empty ones), selectors, plans, trim and cancel, the weight graph of the part weight balancer, both splitters, `evaluatePartition`, iterators; numbers that depend on the data are arguments (any numbers); containers of the standard library are not counted | the work of each function keeps the permutation invariant of C82 (`Neutral`, `GK`), induction over edges, rounds, steps, criteria and acts: `c83_no_ub`, `c83_memory`, `c83_during`, `c83_partition`, `c83_clean_partial`; answers: `c83_isCut`, `c83_resident` |
| C84 | `Agi/CourseModel`: `checkValidity` of each process as a course of local checks and contributions to sums; the processes go on together while all contribute; a mixture of returned and contributing processes waits | `rounds_spec`: the outcome for any courses (answers iff all join the same number of sums); the answers are those of C11's model (`c84_answers`, `c84_accepted`, `c84_mixed`, arbitrary graphs); built hypergraphs `c84_hyper`; built traditional graphs exactly, with self-loops: `c84_trad_answers`, `c84_trad_partial` |
| C85 | `Pcu/StoreModel`: blocks with sizes and the set MPI reads, and what every call of the library asks `noto_malloc/realloc/free` to do; `Pcu/StoreSpec`: `Allowed`, `Legal`, `Quiet` | invariant `Books` (exactly the blocks of the peers, the received message and the ordering object are allocated) kept by every allowed call (`step_keeps`), induction over the history: `c85_safe_partial`, `c85_quiet_partial`, `c85_freed_partial`, `c85_packing_partial` |
| C86 | `Part/TextModel`: `%d`, `%.kf` (exact, ties to even) and the five texts with the sizes of their arrays; `Part/TextSpec`: `Spells`, `SpellsInt`, `Lists`, `Row` | length of every piece bounded from the size of its number (`fixed_length`, `int_length`), imbalance at most the number of parts; digits read back (`fixed_spells`): `c86_imbalances_partial`, `c86_log_partial`, `c86_done`, `c86_zoltan_partial`, `c86_construct` |
| C87 | `Vtk/XmlModel`: the texts of the `.vtu` files and the index, printed from the numbers of C61 with the formats of C86; `Vtk/XmlSpec`: a grammar of XML (`Reads`), words, arrays with their attributes in any order, `IsGrid`, `IsIndex`, looking up names from the index (`resolve`) | the reading is built along the text, element by element (`array_reads`, `ends`), numbers have no white space or markup (`digit_plain`, `words_word`); which arrays are there is read off `writePart`; `Vtk/PictureProps` composes it with C61 for every constructed hypergraph, after any migrations, and for traditional graphs; partial: prefixes with markup characters and relative prefixes with a directory, where it is false |

## 4. Trusted base

* Lean 4.33.0's kernel. Axioms used by the theorems: at most `propext`, `Classical.choice`, `Quot.sound`.
* The reading of the C/C++ text into the model (no code is run).
* MPI: reliable, point-to-point, non-overtaking delivery per (sender, receiver, tag, communicator); `Issend` completes only after the
  receive matched.
* Exact arithmetic for `double` and unbounded integers except where width is the subject.

Not modelled: see section 6 (kept current as the model grows).

## 5. Disagreements between the code and the properties (defects found)

Each line names the machine-checked witness (a theorem) and what it shows of the code as it is.

| claim | witness | what the code does |
|---|---|---|
| C07 | `c07_ghost_source_endless`, `c07_u_endless` | `u(e)` of an edge whose source is not local (which `begin(t)` yields) searches for ever |
| C08 | `c08_traditional_weights_permuted` | a traditional graph whose edges are not grouped by source gets its edge weights permuted |
| C11 | `c11_self_loop_rejected` | `checkValidity` rejects a traditional graph with a self-loop |
| C13 | `c13_vev_ignores_type`, `c13_*_other_type_endless`, `c13_wrong_neighbour_witness` | second adjacency for a type other than 0 contains the neighbours of type 0 and the loop over it never ends |
| C13 | `c13_entering_missing` | for traditional graphs the second adjacency of an edge does not list the edges that enter its ends: not symmetric |
| C14 | `c14_ghost_write_out_of_bounds`, `c14_ghost_reads_local_value`, `c14_ghost_tag_not_writable` | tag access of ghosts uses different offsets for reading and writing |
| C16 | `c16_minus_one_duplicates` | planning destination -1 makes a later insert list the vertex twice |
| C17 | `c17_no_edge_type_ub` | migrating a graph without edge types reads `edge_types[0]`-data that does not exist |
| C17 | `c17_one_way_swap_ub` | the owner of the far end of a one-way edge 3→1 is not updated when 1 moves; if 3 moves onto 1's old part in the same step, that part asks itself for a vertex it no longer owns |
| C17 | `c17_symmetric_second_ub` | also for a graph in which every edge has its opposite: the first migration loses one direction of an edge (C20), after which the part holding the other direction is not told when the far end moves |
| C18 | `c18_coordinates_crossed` | coordinates are matched to vertices by arrival order of a second phase; two vertices can exchange coordinates |
| C17 | `c17_two_types_abort` | with two edge types: only parts joined by type-0 edges are told the new owner of a moving vertex; a part joined by a type-1 edge asks the old owner for its weight and the run aborts |
| C19 | `c19_second_type_lost`, `c19_two_types_stale` | edges of a second type are lost in migration; edges of type 0 arrive among the edges of type 1; ghosts keep the old owner and get the weight of another vertex |
| C20 | `c20_edge_to_moving_vertex_lost` | an edge of a traditional graph is lost if its destination moves and its source stays |
| C22 | `c22_arrives_at_wrong_vertex` | weight sent to another part arrives at that part's last vertex |
| C23 | `c23_big_ids_lost`, `c23_big_ids_clash`, `c23_original_owners_lost`, `c23_self_loop_ub` | ids are cut to 32 bits, original owners are not saved, writing a traditional self-loop dereferences a null vertex |
| C29 | `c29_ordered_stale_delivery`, `c29_ordered_unpack_undefined` | with ordering on (default) Begin during delivery is accepted, Unpack outside receive is undefined |
| C33 | `c33_sum_exceeds_excess`, `c33_sends_to_heavier`, `c33_zero_total_ub` | targets can add up to more than the excess; one-directional traditional edges can send to a heavier part; total weight 0 divides by zero |
| C34 | `c34_fractional_weights_lost`, `c34_traditional_weights_wrong` | sides are `int` |
| C35 | `c35_six_dimensions_ub` | six completed criteria overrun a fixed buffer |
| C35 | `c35_trad_edges_over_limit` | in a traditional graph edges ending on the receiver are taken for edges it has already, so the edge limit is exceeded |
| C36 | `c36_redirected_uncharged`, `c36_trad_redirected_uncharged`, `c36_tie_hides_target`, `c36_big_cavity_ub`, `c36_disconnected_empty_ub`, `c36_disconnected_not_target` | see the theorem comments in `Part/SelectProps.lean` |
| C37 | `c37_overall_limit_exceeded`, `c37_no_priority_ub` | the overall limit can be exceeded by a step per criterion; no criterion reads an empty vector |
| C39 | `c39_zero_total` | total weight 0 gives NaN |
| C40 | `c40_one_direction` | traditional edges stored in one direction only give a wrong component count |
| C42 | `c42_break_loses` | leaving a sweep early loses the queue elements not reached |
| C43 | `c43_bad_rank_ub` | a part file naming a missing rank writes out of bounds |
| C44 | `c44_one_way` | an edge without its reverse gives an unsymmetric matrix |
| C44 | `c44_mixed_signs` | with fractional weights of both signs every partial sum is truncated, so the weights of the two directions of a connection can differ |
| C45 | `c45_zero_amount`, `c45_huge_weight_ub` | zero amounts are planned; weights above 2^31 overflow the cast to `int` |
| C46 | `c46_add_timer_undefined`, `c46_add_timer_undefined_later`, `c46_last_count_uninitialised`, `c46_last_per_call` | every `addTimer` writes one past the end of a vector; the count of the timer added last starts from whatever the memory held, so its time per call is nonsense |
| C47 | `c47_middle_type_unusable` | removing a type that is not the last leaves it counted, with NULL arrays |
| C49 | `c49_no_edge_type_ub`, `c49_many_types_ub` | `evaluatePartition` assumes at most two edge types |
| C50 | `c50_wrong_neighbour`, `c50_serial_wrong_neighbour`, `c50_isolated_vertex_ub` | `create_dist_csr` looks labels up as ids and leaves ids of isolated vertices unset |
| C51 | `c51_remote_pin`, `c51_no_vertices`, `c51_weights_permuted`, `c51_ids_clash` | the pin count given to Zoltan includes remote pins (unwritten memory is read); `offsets[0]` is written on a part without vertices; ids are cut to Zoltan's id type |
| C53 | `c53_imbalance_worse` | with default parameters the balancer oscillates and stops at the worse of two partitions, which is worse than the initial one |
| C52, C53 | `c52_trad_loses` | balancing a symmetric traditional path: the first step loses the edge back to the moved vertex, the heavy part then no longer tells its weight, and the light part sends the vertex back; 1:5 as before, two edges gone |
| C52 | `c52_two_types_lost` | balancing with two edge types: hyperedges of type 1 disappear, those of type 0 are duplicated as type 1 |
| C54 | `c54_two_types_lost` | splitting with two edge types: the same |
| C54 | `c54_trad_loses` | splitting a symmetric traditional graph loses every edge between two vertices of one part of which the source stays on its rank and the destination leaves |
| C54 | `c54_zoltan_hyper_exact`, `c54_zoltan_undefined` | splitting a hypergraph with Zoltan onto more ranks than there are parts is always undefined behaviour (ranks without vertices write `offsets[0]`), also when a hyperedge is cut |
| C51 | `c51_split_owners`, `c51_split_wrong_owner` | in a split Zoltan is told the owners of remote neighbours in the numbering of the small communicator |
| C54 | `c54_short_others` | `other_ranks` shorter than the split factor is read out of bounds; nothing checks its length |
| C55 | `c55_wrong_rank` | original owners recorded before the split (as `balance` does) are not renumbered by `changeOwners`, so `getPartition` sends its answers to the wrong ranks |
| C52 | `c52_isolated_ub` | the default queue crashes `balance` when a part is cut off from the others with one or two hyperedges (C56) |
| C56 | `c56_small_part_ub`, `c56_traditional_ub` | a part without ghosts starts the search from "edge 2", out of bounds if it has one or two edges (this is the default path of `balance` on hypergraphs); for traditional graphs both traversals read out of bounds |
| C58 | `c58_wrong_vertex`, `c58_stale_ghost`, `c58_uphill` | with edges in one direction only, weight goes to the heavier part; weight handed to a vertex is put on the last vertex of its part; ghost weights are not updated by weight diffusion |
| C60 | `c60_global_edges`, `c60_overlap`, `c60_serial`, `c60_tet` | `dofGraph`: `num_global_edges` adds a sum over parts that is already a sum over parts, so it is n times the number of edges (`checkValidity` would reject the graph); ids of dimension d are moved by the count up to and including d, so on one part they collide with the next dimension whenever that has fewer entities (one tetrahedron, any box of hexahedra, order 4), and `assert(pdl[lid+1] == 0)` fails; without assertions pins are lost |
| C61 | `c61_dangling`, `c61_empty_edge`, `c61_no_coords_ub`, `c61_other_type_tag` | files of traditional graphs: a cut edge's other end is printed by its local number although ghosts have no points, so the file refers to points it does not have; a hyperedge without pins is at 0/0; without coordinates a NULL array is read; a tag for edges of a type other than 0 shows -1 everywhere |
| C62 | `c62_edges_cut_ub`, `c62_vertices_cut_ub`, `c62_vertices_other_type`, `c62_traditional` | the view of `edge_list` has `num_local_pins` entries but the array has one per incidence with a local vertex: on every part with a cut edge the copy reads past its end; vertex colouring hands ghosts to `graph_color` as columns outside the matrix; vertices with a type other than 0 are coloured by type 0; traditional graphs give an unsymmetric matrix; the returned number is always 0 |
| C63 | `c63_run_ub`, `c63_two_vertices`, `c63_documented_size_ub`, `c63_hypergraph_ub`, `c63_hypergraph_wrong` | `hg_ew` never increments its index, so with two or more vertices the weights of all but one stay unset; `hg_data` writes `vtxedge_ptr[num_lists]`, one more than Zoltan's documented length, and for hypergraphs writes more pins than announced (the assertion comes after the loop), or the wrong edges |
| C64 | `c64_ub`, `c64_sample_ub` | binGraph.cpp:129-130 copies `n*sizeof(int64_t)` bytes from an array of `n+1` 32-bit numbers: undefined for every part with two or more vertices, that is for every assignment of an edge with two different ends; also `delete` of an array made by `new[]` (line 82, not modelled) |
| C65 | `c65_null_weights_ub`, `c65_short_ub` | the C interface has no way to ask for default weights: a NULL array, which the C++ calls accept, is read; `cengpar_getPartition` cannot know that the arrays are shorter than the length passed. (`cengpar_createLocalSplitInput` is declared with its last two arguments in the other order than it is defined, so the C symbol is missing at link time; not modelled.) |
| C66 | `c66_empty_lost` | a record of zero bytes is reported by `PCU_Comm_Listen` but skipped by `PCU_Comm_Receive`; the hypothesis that a record takes a byte is needed |
| C67 | `c67_refused`, `c67_too_much`, `c67_nothing_planned`, `c67_rehash_ub`, `c67_tolerance_never` | loop variables are declared again inside the loops of the targets, so one allowed side lets vertices go to excluded parts; far more is sent than planned; with unit weights and the default step factor nothing is planned and the balancer stops at once; `s->get` inserts into the table being iterated (undefined if it rehashes); the tolerance `.75*tol` is below 1 for the default 1.1 and cannot be met; the overall iteration limit is overrun as in C37 (`c67_overall_limit_exceeded`) |
| C68 | `c68_weights_abort`, `c68_part_weights_abort`, `c68_again_witness`, `c68_remove_witness`, `c68_long_name`, `c68_long_file` | `WeightBalancer::balance` ends a call it does not report (the report is inside a comment), so with the log open the operation after `balanceWeights` on several processes fails the assertion `depth>=0`, whatever it is, and `balance` with part weights fails it by itself in `~Balancer`; `setOriginalOwners` when there are some, `removeEdges` and `balance` on one process never report their end, so everything later is listed inside them; `createSerendipityGraph` writes the mesh's name into 50 bytes and `createBinGraph` the file's into 256 |
| C69 | `c69_long_prefix`, `c69_picture_clash` | a prefix of 250 characters overruns `filename[256]`; the rank follows the prefix of a picture directly, so part 10 of `g` and part 0 of `g1` are the same file |
| C70 | `c70_seven_types_ub`, `c70_labels` | seven edge types of ten thousand edges overrun the 100 bytes of `printStats`, which `loadFromFile` calls; `evaluatePartition(g,name)` with an edge type overruns the 30 bytes of a label if the name has more than five characters |
| C71 | `c71_foreign_finalize` | `handlingPCU` is never reset: after EnGPar has once started and stopped the library itself, `EnGPar_Finalize` also frees a library the application started later, whose own `PCU_Comm_Free` then aborts |
| C72 | `c72_close_keeps`, `c72_errors_lost`, `c72_failed_open`, `c72_long_format` | `freopen` returns the object it was given, so `EnGPar_Debug_Close` restores nothing and output stays in the debug file; redirecting errors twice loses standard error; a debug file that cannot be opened leaves standard output closed; a format of more than 1016 bytes overruns `buffer[1024]` |
| C73 | `c73_negative` | `PCU_Or` and `PCU_And` are maximum and minimum: with a negative value, true in C, and a zero, `PCU_Or` is false and `PCU_And` true |
| C74 | `c74_name_partial` | `pcu_open_parallel` leaves no room for the dot: with ranks of ten digits, which its comment provides for, the last letter of the extension is lost |
| C79 | `c79_byte_order_not_told` | on a big-endian machine with 32-bit local ids, unless CMake is told `BIG_ENDIAN`, every vertex handle decodes to -1 |
| C79 | `c79_many_edges` | with two edge types more than 2^30 edges of a type overflow the handle, although local ids can count them: `u(edge)` gets a negative index, `edges(v)` is undefined |
| C80 | `c80_local_split_missing` | `cengpar_createLocalSplitInput` is defined with other argument types than declared, so it has C++ linkage: no C or Fortran program that calls it links |
| C80 | `c80_long_edge_type` | with 64-bit local ids the Fortran module passes and expects edge types as 64-bit numbers, C has `int` |
| C80 | `c80_wrong_kind` | a split input given to `cengpar_setCutGrowthFactor` or `cengpar_balance` is undefined |
| C82 | `c82_coords_leak` | `setCoords` on a graph that has coordinates (every mesh graph has) loses the old array |
| C82 | `c82_ghosts_leak` | `constructGhosts` sets `owners = NULL` and makes new ghost weights without releasing the old ones: calling it again after more edges loses three blocks |
| C82 | `c82_plan_twice`, `c82_plan_twice_heap` | `migrate` and `repartition` delete the plan they are given; a caller who deletes it too releases it twice |
| C82 | `c82_vertex_cut` | `binGraph::migrate(EdgePartitionMap&)` releases `edge_list[0]`, an array, with scalar `delete`: undefined on every binary graph |
| C83 | `c83_isCut_leak`, `c83_isCut_unbounded` | `isCut` does not destroy its pin iterator when the answer is no: asking about n edges that are not cut loses n iterators |
| C84 | `c84_waits`, `c84_disagree` | a self-loop in a type that is not the last, on some processes only: these return with no, the others wait for ever in `PCU_Add_Long`; in the last type the processes return different answers |
| C85 | `c85_free_under_way`, `c85_unpack_early`, `c85_two_messages` | `PCU_Comm_Free` between `PCU_Comm_Send` and the end of the receive loop releases buffers MPI sends from; `PCU_Comm_Unpack`/`Sender` before the first `Listen` read through a null array (C29); two messages of one rank in a phase would leak (cannot happen by C28) |
| C86 | `c86_million_ub`, `c86_negative_ub`, `c86_log_ub`, `c86_zoltan_ub` | eight criteria on a million parts, or one criterion with negative weights, overrun the 100 characters of `getImbalances`' callers; 450 criteria overrun the log entry of `balance`; a tolerance of 10^93 overruns the Zoltan parameter |
| C87 | `c87_markup`, `c87_directory`, `c87_some_tags` | with a tag on some parts only the index, written from part 0's tag, and the files disagree on the arrays, for every graph; a prefix with `&` makes the index no XML; with a relative prefix in a directory (`out/a`) the index `out/a.pvtu` names `out/a0.vtu`, which a reader looks up from `out/`: none of the parts is found |

## 6. Modelling assumptions and parts of the code not modelled

Assumptions, beyond section 2:

* *Exchange.* In `Agi`, `Part`, `Io`, a phase `Begin; Pack…; Send; Receive…` is the function `exchange` giving each part the
  messages sent to it in an arbitrary order (a parameter). This is justified by C66, which derives it from C25 (contents), C27 (order), C28 (exactly
  once, ends) and C29; what remains assumed is that the loop bodies of the library undo the packing (`Codec`) record by record. Global reductions are sums over parts, justified by C30. That collectives compose is C77; that phases and
  collectives compose, without any assumption on barriers, is C78 (no collective is called inside a receive loop: the code would overwrite the state of the loop's barrier).
* *Texts (C86).* `%f` prints the exact number rounded half to even, a missing number as `-nan`; `sprintf(m,"%s..",m)`, formally undefined, appends as in glibc.
* *Fuel.* A loop without a syntactic bound takes fuel; running out is the outcome `ub` (the code would not terminate or would
  read beyond). Theorems that conclude `ok` therefore include termination.
* *Hash containers.* `std::unordered_set/map` is an insertion-ordered list where order is irrelevant to the property, and an
  arbitrary iteration order (parameter `Orders`/`HashOrd`) where it can be observed. `operator[]` on a missing key of a
  container that is only read returns the default and the insertion is dropped (`lookup0`).
* *Numbers.* `double` is `Rat`, or `Option Rat` (`none` = NaN) where a division by zero is the subject; double→int conversions
  out of range are `ub` where modelled (C45). Integer widths are unbounded except C01 (handle width), C23/C24 (file), C38
  (unsigned wrap-around), C45 (int32). In particular int32 overflow of counters in `binGraph.cpp`, sides and `idx_t` is outside.
* *Callbacks and environment.* The cavity/sending order of the selector, the balancer's plan and `migrate` inside the
  balancing loop for C37 and C53 (`Moves`; C52 uses the real ones), the shuffle of vertices on rebuild, ParMETIS' result, and user callbacks are arbitrary parameters.
* *Reorderings.* In the rebuild after migration `setCoords` is applied after the edges (independent data). In C23 all files are
  read before ghosts are constructed.
* *Timers.* C46 models a `std::vector`'s size and capacity; access beyond size is `ub`, and the partial theorem names the
  reading in which reserved memory is accessible.
* *Part files* (C43) end with a newline; missing lines read as 0 as `atoi("")` would.

* *Meshes* (C59, C60). `apf::Mesh` and its numberings are a parameter: lists of entities per part with owner, copies and
  adjacency. `MeshOk` says that these are consistent; that PUMI's are is assumed. Message contents are tuples.

* *VTK files* (C61) are the counts and arrays printed; their texts and the `.pvtu` index are C87's. Only edges of type 0 are written, as the code
  does. A reader of VTK files is taken to look up the names in an index from the directory of the index (C87).

* *Kokkos* (C62): a kernel's threads interleave at atomic actions; `parallel_reduce` and `parallel_scan` have their sequential
  meaning; `UnorderedMap` has at least the hinted capacity; `graph_color` is a parameter that is right on symmetric graphs
  without loops. Stores to `edgeList` are to different places (part of the invariant), so there is no data race.

* *Edge partitions* (C63, C64). Zoltan's ids are an arbitrary function of the gids, its buffers have the documented length plus
  `spare` entries; the narrowing of gids to 32 bits in `edge_list` during the migration is left out.

* *Memory of message passing* (C85). `malloc` does not fail, `realloc(p,0)` releases as in glibc, `memcpy` of zero bytes to a null pointer does
  nothing, blocks are never renumbered, AA trees are lists (C26); the debug file is C74; MPI stops reading the send buffers when all sends are done
  (the code asks before the barrier).

* *Names* (C69, C70). Paths are lists of one-byte characters; `.` and `..` are ordinary names; `mkdir` succeeds when the parent is there.

* *The log* (C68). `sprintf(m,"%s..",m)`, formally undefined, appends as in glibc; writing to the file cannot fail; the depth is
  unbounded; an operation is reduced to what it reports, with the numbers of types, criteria and migrations as parameters.

* *Communicators* (C71): of MPI only the table of communicators; handles of freed communicators are not used again by MPI.
  The message queues at the start and end of the library are C29's.

* *Streams* (C72): a `FILE` object leads to one place; buffering and the other processes' files are left out. Using an object
  after a `freopen` that failed is undefined, as in the C standard. What `printf` makes of a format is given with the message.

Not modelled: PUMI itself, the destructor of `apfGraph`,
KokkosKernels itself, memory and wall-clock reporting, command line parsing, MPI itself, ParMETIS and Zoltan themselves.
