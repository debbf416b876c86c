{"id": "C01", "title": "Handles identify exactly one vertex or one (edge, type)", "statement": "Every GraphVertex* and GraphEdge* the library hands out decodes back to the local index (and, for edges, the edge type) it was made from; two different vertices or two different (edge,type) pairs never get the same handle; and no handle equals NULL, so NULL is a safe end-of-iteration marker.", "quantifier": "every number of edge types 1..7, every local index and every type", "why_tests_cant": "The index space is unbounded; a test samples a few small graphs.", "anchors": ["agi/agiVertex.cpp getVertex", "agi/agiEdge.cpp getEdge", "agi/agi_typeconvert.cpp toPtr/fromPtr", "agi/ngraph.h"]}
{"id": "C02", "title": "constructVerts makes every supplied vertex findable with its weight", "statement": "After constructVerts(gids, weights): there is exactly one local vertex per supplied global id; globalID of the i-th vertex is the i-th gid, looking a gid up finds that vertex, its weight is the supplied weight or 1.0 when none was supplied, it is owned by the calling part and it has no edges yet.", "quantifier": "every list of pairwise different gids and every weight list (also one shorter than the gid list)", "why_tests_cant": "Depends on every list length, every ordering and on the interplay of map and array.", "anchors": ["agi/agiConstruct.cpp constructVerts", "agi/agiVertex.cpp"]}
{"id": "C03", "title": "Hypergraph constructEdges records exactly the supplied hyperedges", "statement": "After constructEdges on a hypergraph, iterating the pins of the i-th hyperedge of a type yields exactly the supplied pin list of that hyperedge, in order, and edges(v) of a local vertex v yields exactly the hyperedges that pin v (with multiplicity), in input order; degree(e), degree(v) agree with these iterations.", "quantifier": "every list of hyperedges with arbitrary pin lists, including pins on other parts and repeated pins", "why_tests_cant": "CSR prefix-sum construction has to be right for every degree sequence.", "anchors": ["agi/agiConstruct.cpp constructEdges", "agi/agiIterate.cpp", "agi/agiEdge.cpp pins"]}
{"id": "C04", "title": "Ghosts are exactly the remote end points, once each", "statement": "After constructEdges the ghost vertices are exactly the global ids that occur in some edge but were not given to constructVerts; each is created once no matter how many edges or edge types mention it, its gid lookup works, and local and ghost index ranges are disjoint.", "quantifier": "every sequence of constructEdges calls over several types", "why_tests_cant": "Needs all interleavings of repeated mentions within and across edge types.", "anchors": ["agi/agiConstruct.cpp constructEdges", "agi/ngraph.h numGhostVtxs"]}
{"id": "C05", "title": "Pins and vertex degrees agree (handshake)", "statement": "For a hypergraph, the number of pins of a type (numLocalPins) equals the sum of the degrees of all hyperedges and equals the sum over all local vertices of degree(v,t) plus the pins that land on ghosts; degree(v,t) is the number of pins naming v.", "quantifier": "every constructed hypergraph", "why_tests_cant": "A counting identity over arbitrary inputs.", "anchors": ["agi/agiConstruct.cpp constructEdges", "agi/agiEdge.cpp degree"]}
{"id": "C06", "title": "Traditional-graph constructEdges records exactly the supplied out-edges", "statement": "For a traditional (2-pin) graph, iterating edges(v,t) of a local vertex v and taking the far end of each yields exactly the destinations of the supplied edges whose source is v, in input order; and u(e) returns v for each of them.", "quantifier": "every list of (source,destination) pairs with local sources", "why_tests_cant": "u(e) is a binary search over the CSR offsets: every degree sequence (including runs of isolated vertices) matters.", "anchors": ["agi/agiConstruct.cpp constructEdges", "agi/agiEdge.cpp u v", "agi/agiIterate.cpp"]}
{"id": "C07", "title": "u(e) terminates and finds the source", "statement": "For every local edge of a traditional graph the search done by u(e) terminates and returns the unique vertex whose edge range contains e; for a handle beyond the last edge it would not terminate.", "quantifier": "every degree list and every edge index", "why_tests_cant": "Termination of a loop for all inputs.", "anchors": ["agi/agiEdge.cpp u"]}
{"id": "C08", "title": "Edge weights stay with their edges", "statement": "weight(e) of the edge that joins a supplied pin list (or source/destination pair) is the weight supplied for that edge, 1.0 when none was supplied.", "quantifier": "every list of edges and weights, traditional and hypergraph", "why_tests_cant": "The defect in the traditional case needs an input that is not grouped by source; any one test may miss it.", "anchors": ["agi/agiConstruct.cpp constructEdges", "agi/agiEdge.cpp weight"]}
{"id": "C09", "title": "Vertex, ghost and edge iteration visits every element exactly once", "statement": "begin()/iterate, beginGhosts()/iterate and begin(t)/iterate produce each local vertex, each ghost, each local edge of type t exactly once, in index order, then return NULL; the loops terminate and never produce a handle of a different kind or type.", "quantifier": "every graph size and every type", "why_tests_cant": "Unbounded sizes, off-by-one boundaries.", "anchors": ["agi/agiIterate.cpp", "agi/Iterators/*.h", "agi/agiVertex.cpp begin"]}
{"id": "C10", "title": "Residence and cut status are exactly the owners of the pins", "statement": "getResidence(e) returns exactly the set of parts owning at least one pin of e, isResidentOn(e,p) is true iff p is in that set, and isCut(e) is true iff two pins have different owners.", "quantifier": "every edge and every assignment of owners to vertices; traditional and hypergraph", "why_tests_cant": "All pin lists and all ownership maps; loop corner cases.", "anchors": ["agi/agiEdge.cpp getResidence isResidentOn", "agi/ngraph.h isCut"]}
{"id": "C11", "title": "A constructed graph passes checkValidity", "statement": "checkValidity() never reports an error on a graph that was built by constructVerts, constructEdges and constructGhosts from well-formed input, and what it accepts satisfies the structural facts it is meant to check.", "quantifier": "every well-formed input", "why_tests_cant": "Universal over inputs.", "anchors": ["agi/agiValid.cpp checkValidity"]}
{"id": "C12", "title": "constructGhosts sets ghost owners and counts every global edge once", "statement": "After constructGhosts, owner(g) is the part supplied for ghost g; the global edge count reported on every part is the number of distinct edges over all parts although a cut hyperedge is stored on several parts, and the global vertex count is the sum of local counts.", "quantifier": "every number of parts and every consistent distribution of hyperedges over the parts holding their pins", "why_tests_cant": "Needs every distribution over every number of processes.", "anchors": ["agi/agiConstruct.cpp constructGhosts", "agi/agiConstruct.cpp constructVerts"]}
{"id": "C13", "title": "Second adjacency lists exactly the neighbours through the requested type", "statement": "After create_vev_adjacency(t), iterating the second adjacency of v gives the vertices sharing an edge of type t with v; with compress each neighbour once and never v itself.  create_eve_adjacency(t) likewise gives the edges of type t sharing a vertex of the part.", "quantifier": "every hypergraph, every type t, both compress settings", "why_tests_cant": "All graphs and all types; only types other than 0 expose the default-argument defect.", "anchors": ["agi/agiConstruct.cpp create_vev_adjacency create_eve_adjacency"]}
{"id": "C14", "title": "Tags behave as arrays per entity", "statement": "A tag of a type holds one value per entity: reading after writing the same entity gives the value written, writing one entity never changes another one; this holds for local vertices and edges for every history of writes.  (For ghost vertices reading and writing use different offsets.)", "quantifier": "every history of set/get calls", "why_tests_cant": "All histories.", "anchors": ["agi/agiTag.cpp", "agi/ngraph.h"]}
{"id": "C15", "title": "Ghost tags carry the owner's value", "statement": "After createInt/Long/DoubleGhostTag(callback), reading the tag of every ghost on every part gives the callback value the owning part computes for that vertex, for any message arrival order.", "quantifier": "every number of parts, every consistent distributed graph, every arrival order", "why_tests_cant": "All distributions and message schedules.", "anchors": ["agi/agiTag.cpp createIntGhostTag createLongGhostTag createDoubleGhostTag"]}
{"id": "C16", "title": "A migration plan is a map from vertices to destinations", "statement": "Migration::insert / has / get / clear behave like a finite map: get returns the latest destination inserted for the vertex, has tells whether one was inserted since the last clear, and iterating the plan visits each planned vertex exactly once.", "quantifier": "every history of insert and clear", "why_tests_cant": "All histories.", "anchors": ["agi/agiMigration.cpp", "agi/agiMigration.h"]}
{"id": "C17", "title": "Migration moves every vertex to exactly one part: the planned one", "statement": "After migrate(plan) on all parts, every global vertex is local on exactly one part - the destination planned for it, or the part it was on when none was planned - and no vertex is lost or duplicated; the global vertex count is unchanged.", "quantifier": "every number of parts, every distribution, every plan, every message arrival order", "why_tests_cant": "All plans, distributions and schedules.", "anchors": ["agi/agiMigrate.cpp migrate sendVertices recvVertices addVertices"]}
{"id": "C18", "title": "Migration carries each vertex's weight, coordinates and original owner", "statement": "After migrate, each vertex has the weight, coordinates and original owner it had before, wherever it now lives; total weight over all parts is conserved.", "quantifier": "every plan and distribution", "why_tests_cant": "All plans, distributions and schedules.", "anchors": ["agi/agiMigrate.cpp sendVertices recvVertices", "agi/agiMigrate.cpp sendCoords recvCoords"]}
{"id": "C19", "title": "Migration keeps every hyperedge intact on exactly the parts owning its pins", "statement": "Starting from a consistent distributed hypergraph, after migrate each hyperedge is present exactly once on every part that owns at least one of its pins and on no other, with its complete pin list, its weight, and with every ghost pin's owner being the part where the vertex now lives.", "quantifier": "every consistent distributed hypergraph and every plan", "why_tests_cant": "Distributed invariant for all plans and schedules; a defect appears only with two or more edge types.", "anchors": ["agi/agiMigrate.cpp getAffected addEdges sendEdges recvEdges updateGhostOwners"]}
{"id": "C20", "title": "Migration of traditional graphs keeps every edge", "statement": "After migrate on a traditional graph, each directed edge is present exactly once, on the part owning its source.", "quantifier": "every traditional distributed graph and every plan", "why_tests_cant": "Only a plan that moves the destination and not the source shows the loss.", "anchors": ["agi/agiMigrate.cpp addEdges getAffected sendEdges"]}
{"id": "C21", "title": "getPartition reports the current placement to the original owner", "statement": "After any sequence of migrations, getPartition on a part returns for each vertex originally owned there (and no other) the part where it lives now.", "quantifier": "every history of migrations from an initial distribution", "why_tests_cant": "All histories.", "anchors": ["agi/agiMigrate.cpp getPartition", "agi/ngraph.h setOriginalOwners originalOwner"]}
{"id": "C22", "title": "Weight migration conserves total weight and moves the planned amount", "statement": "After a weight migration every planned amount w from vertex v to neighbouring vertex u leaves v and arrives at u; the total weight over all parts is unchanged.", "quantifier": "every weight plan and distribution", "why_tests_cant": "Per-vertex arrival is only right by accident in small tests.", "anchors": ["agi/agiWeightMigrate.cpp", "agi/agiWeightMigration.cpp"]}
{"id": "C23", "title": "saveToFile then loadFromFile gives the same graph", "statement": "Loading a file written by saveToFile on the same number of parts gives a graph with the same vertices, weights, coordinates, edges with pins and weights, types and ghost owners.", "quantifier": "every graph (global ids below 2^32)", "why_tests_cant": "All graphs; failure needs a gid beyond 32 bits.", "anchors": ["agi/agiIO.cpp"]}
{"id": "C24", "title": "File numbers are portable between byte orders", "statement": "The bytes written for an integer or double array do not depend on the machine's endianness and reading them back on either endianness gives the same values.", "quantifier": "every array of 16/32/64 bit words on both endiannesses", "why_tests_cant": "All bit patterns.", "anchors": ["pcu/pcu_io.c", "pcu/pcu_byteorder.h"]}
{"id": "C25", "title": "A message buffer returns what was packed, in order, and detects overrun", "statement": "For any sequence of packs, unpacking pieces of the same lengths returns the same bytes in the same order; growth never loses data; unpacking past the end fails instead of returning garbage; Unpacked is true exactly when everything was read.", "quantifier": "every sequence of pack sizes and contents", "why_tests_cant": "All sizes around every growth boundary.", "anchors": ["pcu/pcu_buffer.c"]}
{"id": "C26", "title": "The message tree is an ordered set with logarithmic depth", "statement": "Any sequence of inserts, finds and removes on the peer tree behaves as a finite ordered set keyed by peer: find finds exactly what was inserted and not removed, inserting an existing key returns the existing entry, and the depth stays within 2*log2(n+1).", "quantifier": "every history of insert/find/remove", "why_tests_cant": "All histories; balance bugs hide in rare rotations.", "anchors": ["pcu/pcu_aa.c"]}
{"id": "C27", "title": "Ordered receive delivers each message once in sender order", "statement": "With ordering on, the receive loop delivers the messages of a phase in increasing sender rank, each exactly once, whatever the arrival order; so results are deterministic.", "quantifier": "every set of messages and every arrival permutation", "why_tests_cant": "All permutations.", "anchors": ["pcu/pcu_order.c", "pcu/pcu.c PCU_Comm_Order"]}
{"id": "C28", "title": "A communication phase delivers exactly this phase's messages, then ends", "statement": "In every schedule, each rank's receive loop returns precisely the messages sent to it in this phase, each once and complete, ends only when no message of the phase is in flight, always can end, and never receives a message belonging to another phase.", "quantifier": "every number of ranks, every message pattern, every interleaving of sends, deliveries and rank progress, every number of consecutive phases", "why_tests_cant": "All interleavings of an asynchronous protocol.", "anchors": ["pcu/pcu_msg.c", "pcu/pcu_coll.c", "pcu/pcu_pmpi.c"]}
{"id": "C29", "title": "Out-of-phase API calls fail instead of corrupting a message", "statement": "Pack outside Begin/Send, Unpack outside receive, Begin during a phase and a rank outside the job are refused with a failure; legal call sequences never fail.", "quantifier": "every sequence of API calls", "why_tests_cant": "All call histories.", "anchors": ["pcu/pcu_msg.c", "pcu/pcu.c"]}
{"id": "C30", "title": "Allreduce gives every rank the combination of all contributions", "statement": "PCU_Add/Min/Max on any number of ranks gives every rank the combination of all ranks' values; every collective message has a matching receive, so it does not deadlock.", "quantifier": "every number of ranks >= 1, all values, any associative commutative operation", "why_tests_cant": "All process counts, powers of two or not.", "anchors": ["pcu/pcu_coll.c pcu_reduce pcu_bcast pcu_allreduce"]}
{"id": "C31", "title": "Exclusive scan gives each rank the sum of the lower ranks", "statement": "PCU_Exscan on rank r returns the sum of the values of ranks 0..r-1.", "quantifier": "every number of ranks and all values", "why_tests_cant": "All process counts.", "anchors": ["pcu/pcu_coll.c pcu_scan", "pcu/pcu.c PCU_Exscan_Ints"]}
{"id": "C32", "title": "No rank leaves a barrier before all have entered", "statement": "In every schedule, PCU_Barrier returns on a rank only after every rank has called it, and returns eventually once all have.", "quantifier": "every number of ranks and every interleaving", "why_tests_cant": "All interleavings.", "anchors": ["pcu/pcu_coll.c pcu_barrier"]}
{"id": "C33", "title": "Diffusion only sends from heavier to lighter neighbours and never more than the excess", "statement": "Every target computed for a neighbour is to a lighter neighbour, positive, and the weight asked for, summed over all neighbours, does not exceed step_factor times the largest excess over a neighbour.", "quantifier": "every neighbourhood, weights, sides and tolerances", "why_tests_cant": "All real-valued configurations.", "anchors": ["partition/Diffusive/src/engpar_targets.h"]}
{"id": "C34", "title": "Sides count each cut edge per neighbouring part", "statement": "The sides of a part hold, for each neighbouring part, the number (weight) of edges shared with it; a part is never its own neighbour and the total counts each cut edge once; every neighbour with a positive side shares an edge.", "quantifier": "every distributed graph", "why_tests_cant": "All graphs.", "anchors": ["partition/Diffusive/src/engpar_sides.h"]}
{"id": "C35", "title": "Accepted weight never exceeds the receiving part's room", "statement": "When a part accepts offers of incoming weight, the sum of accepted offers stays within the room left in every already-balanced criterion; and the senders then cancel vertices until what they send to that part fits the accepted amount.", "quantifier": "every set of offers, limits and cavities", "why_tests_cant": "All offers in all orders.", "anchors": ["partition/Diffusive/src/engpar_selector.cpp trim acceptWeight cancel"]}
{"id": "C36", "title": "Selection sends only to targets and stops at the quota", "statement": "select only plans vertices owned by the part, only to parts in the target list that still want weight, and never sends a vertex twice.", "quantifier": "every graph, queue and target list", "why_tests_cant": "All graphs.", "anchors": ["partition/Diffusive/src/engpar_selector.cpp select"]}
{"id": "C37", "title": "Balancing terminates within the configured iteration limits", "statement": "balance() performs at most (maxIterationsPerType+1) steps per criterion and no more than the overall limit, and stops when the imbalance target is met, when progress stagnates or when nothing was migrated.", "quantifier": "every input configuration and every behaviour of the steps", "why_tests_cant": "All trajectories.", "anchors": ["partition/Diffusive/src/engpar_balancer.cpp"]}
{"id": "C38", "title": "Slope detection has the right sign", "statement": "The stagnation detector's slope over its window of three values is nonnegative for nondecreasing and nonpositive for nonincreasing histories and zero for constant ones, however many values were pushed.", "quantifier": "every history of pushed values", "why_tests_cant": "All histories, ring buffer positions.", "anchors": ["partition/Diffusive/src/engpar_sd.cpp"]}
{"id": "C39", "title": "Imbalance is at least one and exact", "statement": "EnGPar_Get_Imbalance returns maximum part weight over average part weight, which is >= 1, and equals 1 iff all parts weigh the same.", "quantifier": "every number of parts and every positive weights", "why_tests_cant": "All weights.", "anchors": ["partition/Metrics/engpar_metrics.cpp"]}
{"id": "C40", "title": "Disconnected-component count is exact", "statement": "The reported number of disconnected components of a part is the number of connected components of its local graph minus one.", "quantifier": "every part graph", "why_tests_cant": "All graphs.", "anchors": ["partition/Metrics/engpar_metrics.cpp", "partition/engpar.cpp"]}
{"id": "C41", "title": "Queue sorting sorts and loses nothing", "statement": "The distance sort of the iteration queue returns a permutation of the edges, ordered by distance.", "quantifier": "every array and distance function", "why_tests_cant": "All arrays and pivots.", "anchors": ["partition/Diffusive/src/engpar_queue.cpp bfsSort"]}
{"id": "C42", "title": "The boundary queue holds exactly the part-boundary edges, in index order", "statement": "The default iteration queue contains exactly the edges having a pin owned by another part, each once; adding and popping elements while sweeping never loses or repeats one.", "quantifier": "every graph and every pattern of re-adding", "why_tests_cant": "All graphs.", "anchors": ["partition/Diffusive/src/engpar_queue.cpp createIterationQueue", "partition/Diffusive/src/engpar_queue.h"]}
{"id": "C43", "title": "Binary edge-list loading reads every edge exactly once and sends it to its owner", "statement": "The byte ranges read by the ranks are disjoint and cover the file; each vertex id belongs to exactly one valid rank; after the exchange each edge is on the rank owning its source exactly once.", "quantifier": "every number of ranks and edges", "why_tests_cant": "All sizes, remainders.", "anchors": ["interfaces/binGraph.cpp"]}
{"id": "C44", "title": "The graph handed to ParMETIS is the whole graph, numbered 0..N-1", "statement": "The distributed numbering handed to the partitioner numbers the global vertices 0..N-1 without gap or duplicate, in rank order; each vertex's row lists exactly its neighbours, each once, under the number its owner gave it; a local split hands over exactly the part's own graph; the returned plan sends every vertex to the part chosen for its number.", "quantifier": "every number of parts, part sizes (also empty), message order and map iteration order", "why_tests_cant": "All sizes incl. empty parts.", "anchors": ["partition/Multilevel/engpar_parmetis.cpp EnGPar_ParMETIS", "partition/Multilevel/engpar_split.cpp split"]}
{"id": "C45", "title": "Weighted diffusion plans only positive amounts and never overdraws", "statement": "A weight plan built by the weight selector only moves positive amounts to target parts and after simplification contains no pair with a non-positive amount.", "quantifier": "every graph and targets", "why_tests_cant": "All graphs.", "anchors": ["partition/Diffusive/src/engpar_weightSelector.cpp", "partition/Diffusive/src/engpar_weightBalancer.cpp"]}
{"id": "C46", "title": "Migration timers can be read back", "statement": "After adding a timer its accumulated time can be updated and read by name.", "quantifier": "every history of timer additions and updates", "why_tests_cant": "Out-of-bounds access may go unnoticed in a test.", "anchors": ["agi/agiMigrationTimers.cpp"]}
{"id": "C47", "title": "Removing an edge type leaves the others intact", "statement": "removeEdges(t) removes all edges of type t; the edges, pins and adjacencies of every other type stay as they were.", "quantifier": "every graph and type", "why_tests_cant": "All graphs.", "anchors": ["agi/agiConstruct.cpp removeEdges"]}
{"id": "C48", "title": "changeOwners renames parts consistently", "statement": "changeOwners(map) replaces the owner of every ghost by its new part id and leaves everything else alone.", "quantifier": "every ownership and every map", "why_tests_cant": "All maps.", "anchors": ["agi/agiConstruct.cpp changeOwners"]}
{"id": "C49", "title": "evaluatePartition reports averages for every edge type", "statement": "evaluatePartition prints, for the neighbours, the vertices and every edge type, the average over the parts, whatever the number of edge types of the graph.", "quantifier": "every number of edge types, every number of parts, every values", "why_tests_cant": "the test graphs have one or two edge types, where the loop bound happens to be right", "anchors": ["partition/engpar.cpp: evaluatePartition"]}
{"id": "C50", "title": "The graph built from a binary edge list is the graph of the file", "statement": "createBinGraph gives every rank the vertices assigned to it, each with its id from the file, as many edges as the file has with a source on the rank, and neighbours of every vertex (with owners) equal to the destinations of its edges in the file.", "quantifier": "every edge list, number of ranks and assignment of vertices to ranks", "why_tests_cant": "All files; whether an edge is garbled depends on which ids happen to equal labels of the rank, so small dense examples look right.", "anchors": ["interfaces/binGraph.cpp create_dist_csr exchange_edges load_edges"]}
{"id": "C51", "title": "Zoltan is given the graph", "statement": "When splitting with Zoltan every part hands over its vertices with ids and weights, for a hypergraph every vertex with the hyperedges it is a pin of and the weight of every hyperedge, for a traditional graph every vertex with its neighbours, their parts and the edge weights; and the plan returned sends exactly the vertices Zoltan exports to the parts it names.", "quantifier": "every distributed graph (any number of parts, vertices, edges, edge types), every part, every list of exports", "why_tests_cant": "All graphs; the rows read past the written data only when a part has remote pins, and what is then read is whatever was in memory.", "anchors": ["partition/Multilevel/engpar_zoltan.cpp: numVertices, getVertices, numHyperedges, getHyperedges, getHyperedgeWeights, numEdges, getEdges, EnGPar_Zoltan"]}
{"id": "C52", "title": "Balancing keeps the graph and what it has finished", "statement": "Balancer::balance() on a distributed graph ends normally and leaves the same graph: every vertex on exactly one part with its weight, coordinates and original owner, every part listing exactly the edges that touch it with their pins and where they live. A vertex only ever moves to a strictly lighter part that shares an edge with its own. In the dimension of every criterion worked off, no part ends heavier than the heaviest part when that criterion was finished or than the tolerated weight then: later criteria do not undo earlier ones.", "quantifier": "every distributed graph, number of parts, priorities, tolerances, limits and step factors, every message delivery order and hash iteration order of every step", "why_tests_cant": "All graphs and schedules; a whole run is a composition of dozens of steps each depending on delivery orders.", "anchors": ["partition/Diffusive/src/engpar_balancer.cpp: Balancer::runStep, Balancer::balance", "partition/Diffusive/src/engpar_selector.cpp", "agi/agiMigrate.cpp"]}
{"id": "C53", "title": "Balancing does not make the imbalance worse", "statement": "After a criterion was worked on, the imbalance in its dimension is not higher than it was before; parts that already meet every tolerance are left alone; and the imbalance and reason to stop that are reported are true of the parts at that time.", "quantifier": "every distributed graph, every input, every completed run", "why_tests_cant": "Whether the run ends at the good or the bad end of an oscillation depends on weights and starting partition.", "anchors": ["partition/Diffusive/src/engpar_balancer.cpp: Balancer::runStep 83-194, Balancer::balance 195-350"]}
{"id": "C54", "title": "Splitting puts every vertex on the rank chosen for it and loses nothing", "statement": "split() of a graph held by the parts of a small communicator over a larger communicator, by the global or the local ParMETIS method, ends normally; afterwards every vertex is on exactly the rank the partitioner chose for it (local: the rank listed in other_ranks under the chosen number), with its weight and coordinates, every rank lists exactly the edges that touch it with their pins and the ranks where these live, and the global counts are unchanged. The graph can then be migrated over the large communicator like any other.", "quantifier": "every distributed graph and history of migrations before, every number of ranks and every assignment of the parts to ranks, every answer of the partitioner, every delivery order and hash order", "why_tests_cant": "The tests split with one rank pattern and one partitioner; the owner renumbering matters for all patterns.", "anchors": ["partition/Multilevel/engpar_split.cpp: expandParts, split", "agi/agiVertex.cpp: Ngraph::changeOwners", "agi/agiMigrate.cpp"]}
{"id": "C55", "title": "After a split, getPartition tells the ranks of the original parts where their vertices are", "statement": "After split() (and further migrations), getPartition() gives the rank that was part p of the small communicator a map with exactly the vertices that started on p and the rank each is on now; all other ranks get an empty map.", "quantifier": "every distributed graph, whether or not it was balanced before the split, every assignment of parts to ranks, every history", "why_tests_cant": "Which numbering the recorded owners use depends on the calls made before the split and on the rank pattern.", "anchors": ["partition/Multilevel/engpar_split.cpp: split", "agi/agiVertex.cpp: Ngraph::setOriginalOwners, Ngraph::changeOwners", "agi/agiMigrate.cpp: Ngraph::getPartition"]}
{"id": "C56", "title": "The distance queue holds the part-boundary edges, farthest from the core first", "statement": "The queue hypergraphs use by default when balancing (createDistanceQueue) is built without reading or writing invalid memory and contains exactly the part-boundary edges of type 0, each once, whichever breadth-first search (push or pull) is chosen; of two edges in one connected component of the part, the one shown earlier is at least as far from the core of that component (the edges farthest from the boundary) as the one shown later.", "quantifier": "every part of every distributed hypergraph, both traversals", "why_tests_cant": "The order depends on the whole shape of the part: disconnected components, several searches joined by disjoint sets, ties; a test sees a few meshes.", "anchors": ["partition/Diffusive/src/engpar_queue.cpp: createDistanceQueue, bfs_push, bfs_pull, depth_visit, distance_visit", "partition/Diffusive/src/engpar_balancer.cpp:129-133", "partition/Diffusive/engpar_diffusive_input.cpp:9-12"]}
{"id": "C57", "title": "The distance queue works through one component at a time, the shallow and small ones first", "statement": "In the distance queue the boundary edges of one connected component of a part are shown one after the other, not mixed with those of another; components whose core is nearer to the boundary come before deeper ones, and of equally deep components the one with fewer edges comes first.", "quantifier": "every part of every distributed hypergraph, any number of components, both traversals", "why_tests_cant": "It depends on the number, depth and size of all components at once and on the offsets computed from the disjoint sets after merging in any order; a few meshes with one component show none of it.", "anchors": ["partition/Diffusive/src/engpar_queue.cpp: createDistanceQueue lines 311-376, distance_visit lines 120-144"]}
{"id": "C58", "title": "Weight diffusion moves weight downhill, between neighbours, and accounts for all of it", "statement": "balanceWeights ends after at most maxIterations steps without undefined behaviour. Each step that migrates hands natural amounts of weight from vertices of a part to vertices of lighter parts with which they share a hyperedge, to each lighter part at most the step factor times the difference of the two weights, and reports the amount; each step reports the imbalance of the parts at that time. Nothing but vertex weights changes, no weight becomes negative and the sum over all parts is kept. Afterwards the recorded movements are natural numbers, a pair of vertices is recorded in one direction only, and the weight of every part is its former weight less what its own record gives away plus what the records of the other parts give it; weight recorded as handed to a vertex is on that vertex, and every part sees the current weight of its ghosts.", "quantifier": "every distributed hypergraph with non-negative vertex weights, every parameter, every delivery order of the messages and every hash order in every step", "why_tests_cant": "A conservation law over any number of steps, parts and message orders; a test sees one run and usually only the final imbalance.", "anchors": ["partition/Diffusive/src/engpar_weightBalancer.cpp: runStep, balance, simplifyPlan", "partition/Diffusive/src/engpar_weightSelector.cpp", "agi/agiWeightMigrate.cpp"]}
{"id": "C59", "title": "The graph of a mesh is the mesh", "statement": "createAPFGraph on a consistent distributed mesh with usable dimensions makes, without undefined behaviour, one graph whose vertices on a part are the owned primary entities with weight 1 and their centroids; whose edges of each type are the entities of the secondary dimension on the part, with weight 1, each having as pins exactly the primary entities next to it in the whole mesh with their owners, and each vertex having exactly the entities next to it as edges; whose ghosts are the primary entities of other parts that are pins of an edge of the part, known once, with the right owner and weight; and whose global numbers of vertices, edges and pins count every entity once although several parts have copies. Unusable dimensions and an empty mesh make it throw.", "quantifier": "every consistent distributed mesh on any number of parts, any primary dimension and list of secondary dimensions, every delivery order of the messages", "why_tests_cant": "The pins of a shared entity come in pieces from all parts that have a copy, in any order; a test sees a few meshes with one partition and one order of arrival.", "anchors": ["interfaces/apfGraph.cpp: apfGraph, checkDims, setupPrimary, setupSecondary, connectToEdges, connectToPins, constructGhostVerts", "agi/agiEdge.cpp: makeEdgeArray, setEdge"]}
{"id": "C60", "title": "The graph of the degrees of freedom of a mesh", "statement": "createSerendipityGraph on a consistent distributed mesh makes one graph with the elements as vertices and one edge type, whose edges are the corners, from order 2 also the edges and from order 4 also the faces, with different ids for different entities and the number of degrees of freedom of the entity as weight; pins, edges of a vertex, ghosts and the numbers of vertices, edges and pins are those of the mesh.", "quantifier": "every consistent distributed mesh of any dimension on any number of parts, every order of the elements, every delivery order of the messages", "why_tests_cant": "Whether ids of different dimensions collide depends on the numbers of entities of each dimension and of parts; tests use one mesh.", "anchors": ["interfaces/dofGraph.cpp: dofGraph, setupHyperedges, connectToEdges, connectPins, hasDOFs, numDOFs"]}
{"id": "C61", "title": "VTK files show the graph", "statement": "writeVTK on a graph with coordinates writes one file per part, without undefined behaviour and whatever the message orders. Each file is a proper unstructured grid (arrays of the announced sizes, every line between two points of the file); it shows the part's vertices at their coordinates and, for a hypergraph, the hyperedges of type 0 at the mean position of all their pins, also those on other parts; it marks each point with the part, its kind and the tag's value; and the lines of all files together are the incidences of the hypergraph, each once (for a traditional graph: the edges).", "quantifier": "every distributed graph with coordinates, any number of parts and edge types, after construction or any migrations, every tag, every delivery order of the messages", "why_tests_cant": "The position of a cut hyperedge is computed from coordinates fetched from all other parts in any order; whether point numbers stay inside the file depends on the partition. Tests look at pictures of a few graphs.", "anchors": ["agi/agiVTK.cpp: writeVTK, writePoints, writeCells, writePointData, getNumCells", "agi/agiVertex.cpp: coord"]}
{"id": "C62", "title": "Colourings give neighbours different colours", "statement": "EnGPar_KokkosColoring gives one colour per edge of the requested type (or per vertex of the part) such that two edges sharing a vertex (two vertices sharing an edge of the type) have different colours, whatever the schedule of the kernels that build the adjacency, the slots of the hash map and the order of its keys; the parallel construction lists for every edge each other edge sharing a vertex exactly once.", "quantifier": "every part of every graph, every edge type, every interleaving of the kernels' atomic operations, every capacity, slot assignment and iteration order, every correct graph_color", "why_tests_cant": "The adjacency is built by concurrent threads with atomic counters; a test sees one schedule on one device. Undefined behaviour on parts with cut edges can go unnoticed.", "anchors": ["partition/Coloring/engpar_kokkosColoring.cpp: parallel_create_eve, EnGPar_KokkosColoring, hostToDevice", "partition/Coloring/engpar_coloring_input.h"]}
{"id": "C63", "title": "The edge partitioner is told every edge once", "statement": "When Zoltan partitions the edges of a part (EnGPar's cut-vertex method), the query functions tell it every edge of the part exactly once, list for every vertex exactly its edges, give every vertex of the part a weight of one over its number of edges, stay inside the arrays Zoltan hands them, and the partition returned has for every exported edge the part Zoltan chose.", "quantifier": "every part of every graph, every Zoltan id conversion and every array length Zoltan documents", "why_tests_cant": "Zoltan calls the functions with buffers of its own; writing past their end or leaving entries unset shows only as corrupted memory or a different partition.", "anchors": ["zoltan/ZoltanCallbacks.cpp: num_edges, edge_list, hg_size_cs, hg_data, hg_size_ew, hg_ew", "zoltan/ZoltanCutVertex.cpp: ZoltanCutVertex::run, createPtn"]}
{"id": "C64", "title": "Migrating edges of a binary graph", "statement": "binGraph::migrate(EdgePartitionMap) leaves on every part exactly the edges the maps of all parts assign to it, between the same vertices as before, its vertices are the ends of these edges, each once, and every vertex that several parts have knows all the others.", "quantifier": "every graph, every assignment of edges to parts, every number of parts, every order of messages", "why_tests_cant": "The result depends on the assignment and on the order of arrival; the split-vertex arrays are built through a byte copy whose overrun need not be noticed.", "anchors": ["interfaces/binGraph.cpp: binGraph::migrate, create_dist_csr", "interfaces/binGraph.h"]}
{"id": "C65", "title": "The C interface", "statement": "A graph made through cengpar_constructVerts, cengpar_constructEdges and cengpar_constructGhosts is the one the C++ calls make from the lists in the arrays, whatever lies behind them; after any migrations cengpar_getPartition fills the caller's arrays with each vertex this part handed over exactly once, next to it the part where it is now, leaves the rest of the arrays alone, and refuses a wrong length.", "quantifier": "every distributed graph, every content and length of the arrays, every history of migrations, every order of messages and of the hash map", "why_tests_cant": "The order of the entries depends on the hash map and on arrival; overruns of the caller's arrays need not be noticed.", "anchors": ["interfaces/cengpar.cpp: cengpar_constructVerts, cengpar_constructEdges, cengpar_constructGhosts, cengpar_getPartition", "interfaces/cengpar.h", "agi/agiMigrate.cpp: Ngraph::getPartition"]}
{"id": "C66", "title": "The receive loop reads exactly the records packed for the rank", "statement": "A program that packs records with PCU_Comm_Pack (or PCU_Comm_Write), calls PCU_Comm_Send and then loops 'while (PCU_Comm_Receive()) unpack one record' (or 'while (PCU_Comm_Read(...))') reads on every rank exactly the records packed for that rank in this phase, each once, unmixed, with the rank that sent it; the records of one sender come together in the order of packing, and with ordering on (the default) the senders come in increasing rank, independent of arrival. Empty messages are skipped, the loop ends, and the next phase can begin. Records take at least one byte.", "quantifier": "every number of ranks, every pattern, number and length of records, every way of cutting a record into Pack calls, every schedule and arrival order, every sequence of phases", "why_tests_cant": "It combines all interleavings of the asynchronous phase, all arrival orders and all record lengths; a boundary error shows only when a record or message boundary falls at a particular place.", "anchors": ["pcu/pcu.c: PCU_Comm_Receive, PCU_Comm_Unpacked, PCU_Comm_Listen, PCU_Comm_Sender, PCU_Comm_Unpack, PCU_Comm_Write, PCU_Comm_Read", "pcu/pcu_order.c", "pcu/pcu_msg.c", "pcu/pcu_buffer.c"]}
{"id": "C67", "title": "Diffusive balancing steered by the part weight balancer", "statement": "With runPartWeightBalancer set, balance() first plans, per criterion, how much weight is to go between neighbouring parts: natural amounts, only between parts that share a hyperedge, in one direction, no part giving more than it has and gets. The steps that follow move vertices only along the planned directions, keep account of what is left to send, and otherwise keep everything plain balancing keeps: the same hypergraph, every vertex on one part, finished criteria not undone, the iteration limits. Parts excluded by the side tolerance or by a finished criterion are not sent to, and no more is sent than planned.", "quantifier": "every distributed hypergraph, its weights and earlier migrations, all tolerances, step factors, limits, priorities, delivery and hash orders", "why_tests_cant": "The plan depends on all weights and sides and on the hash orders; whether an excluded part is sent to or an amount exceeded shows only for particular side sizes.", "anchors": ["partition/Diffusive/src/engpar_balancer.cpp: Balancer::partWeightBalancer, runStep, balance", "partition/Diffusive/src/engpar_targets.h: Targets (second constructor)", "partition/Diffusive/src/engpar_selector.cpp: calculatePlanWeight, updatePartWeight"]}
{"id": "C68", "title": "The log lists the calls made, and keeping it changes nothing", "statement": "With the log open on rank 0, every operation that reports itself appears in the log as one line, in the order of the calls, indented by two blanks for each reported call it was made from; a finished operation is not counted any more. Keeping the log changes nothing else: a history of operations ends as it would without the log, and in the same state. A process that is not rank 0, or whose log is closed, writes nothing.", "quantifier": "every history of operations on any number of graphs (construction, loading, migration, repartitioning, balancing, destruction), any number of edge types, criteria and migrations, any names and any number of processes", "why_tests_cant": "The indentation and the assertion behind it depend on the whole history of calls, not on one call; the tests that open the log never look at it.", "anchors": ["support/engpar_log.cpp: EnGPar_Open_Log, EnGPar_Log_Function, EnGPar_End_Function, EnGPar_Close_Log", "agi/agiConstruct.cpp: constructGraph, constructVerts, constructEdges, constructGhosts, removeEdges, destroyData, destroyGraph", "agi/agiVertex.cpp: setOriginalOwners, resetOwnership", "agi/agiMigrate.cpp: migrate, getPartition, repartition", "partition/Diffusive/src/engpar_balancer.cpp: balance, Balancer::balance, partWeightBalancer", "partition/Diffusive/src/engpar_weightBalancer.cpp: WeightBalancer::balance, balanceWeights", "interfaces/dofGraph.cpp: createSerendipityGraph", "interfaces/binGraph.cpp: createBinGraph"]}
{"id": "C69", "title": "Files and directories of saved graphs and pictures", "statement": "saveToFile gives every part a file of its own: two saves share a file only if they have the same prefix and are of the same part; loadFromFile looks for the file saveToFile wrote. Missing directories on the way to the file are made, and no others, so the file can be opened. The parts of a picture written by writeVTK write different files, and the index lists exactly these. Pictures with different prefixes do not share files, and any prefix can be used.", "quantifier": "every prefix, every number of parts, every state of the directories", "why_tests_cant": "Whether names collide or fit depends on all pairs of prefixes and ranks; the tests use a few short prefixes and up to four parts.", "anchors": ["agi/agiIO.cpp: saveToFile, loadFromFile, mkdir_r", "agi/agiVTK.cpp: writeVTK, writePSources"]}
{"id": "C70", "title": "Reports of any graph", "statement": "printStats prints the number of vertices and, for every edge type, the number of edges and of pins, for every graph; evaluatePartition labels its lines with the name it is given, for every name and number of edge types.", "quantifier": "every number of edge types up to the limit of seven, all counts, all names", "why_tests_cant": "The texts are put together in arrays of fixed size; whether they fit depends on the number of types and digits, and tests have small graphs with one or two types.", "anchors": ["agi/agiConstruct.cpp: Ngraph::printStats", "partition/engpar.cpp: evaluatePartition"]}
{"id": "C71", "title": "Life of the library and its communicators", "statement": "EnGPar_Initialize starts the communication library if the application has not, EnGPar_Finalize stops it only if EnGPar started it and leaves the application's alone, in any sequence of starts, stops and switches of communicator. While it runs, the rank, the size and the communicator it reports are those of the communicator last given, even if the application has freed it since; its messages never go over a communicator of the application, and no communicator is leaked. After a split the process is on the large communicator.", "quantifier": "every sequence of starting, stopping, switching, querying, creating and freeing communicators", "why_tests_cant": "Whether an EnGPar_Finalize frees a library it does not own depends on the whole history before it; a test runs one start and one stop.", "anchors": ["support/engpar_support.cpp: EnGPar_Initialize, EnGPar_Finalize, EnGPar_Switch_Comm", "pcu/pcu.c: PCU_Comm_Init, PCU_Comm_Free, PCU_Switch_Comm, PCU_Comm_Self, PCU_Comm_Peers, PCU_Get_Comm", "pcu/pcu_pmpi.c: pcu_pmpi_init, pcu_pmpi_finalize, pcu_pmpi_switch", "partition/Multilevel/engpar_split.cpp: split"]}
{"id": "C72", "title": "Messages go where they should", "statement": "A message is printed exactly when the verbosity asks for it, in the order of the calls, with its prefix, on its stream or, while one is open, in the debug file of the process; closing the debug file sends output and errors back to where they went before; a debug file that cannot be opened only gives an error; EnGPar_Hit_Error tells whether an error was reported since EnGPar_Start_Test.", "quantifier": "every sequence of messages, verbosity changes, tests and opening and closing debug files, every rank", "why_tests_cant": "Which stream a pointer leads to depends on the whole history of redirections, and tests redirect at most once and look at the screen.", "anchors": ["support/engpar_message.cpp: EnGPar_Status_Message, EnGPar_Warning_Message, EnGPar_Error_Message, EnGPar_Print, EnGPar_Debug_Open, EnGPar_Debug_Close, EnGPar_Start_Test, EnGPar_Hit_Error", "support/engpar_support.cpp: EnGPar_Set_Verbosity, EnGPar_Check_Verbosity"]}
{"id": "C73", "title": "Logical reductions", "statement": "PCU_Or returns true (not zero) on every rank exactly if some rank gave a true value, PCU_And exactly if all did, and all ranks get the same answer.", "quantifier": "every number of ranks, every schedule, all int values", "why_tests_cant": "They are a maximum and a minimum of ints; tests use 0 and 1 on a few ranks.", "anchors": ["pcu/pcu.c: PCU_Or, PCU_And", "pcu/pcu_coll.c: pcu_allreduce"]}
{"id": "C74", "title": "Opening files on many ranks", "statement": "However many ranks open files with pcu_fopen and in whatever order they run, at most 4096 are opening at the same time, every rank opens its file once, and all get on. PCU_Debug_Open gives every rank a debug file of its own: its directory is there when it opens the file, in every schedule. Strings written to a file are read back.", "quantifier": "every number of ranks, every schedule, every state of the disk, all prefixes, extensions, ranks and strings", "why_tests_cant": "Groups and directories are used only in jobs of thousands of ranks, and whether a directory is made in time depends on the schedule.", "anchors": ["pcu/pcu_io.c: pcu_group_open, pcu_open_parallel, pcu_read_string, pcu_write_string", "pcu/pcu.c: PCU_Debug_Open, safe_mkdir, append"]}
{"id": "C75", "title": "A migrated graph is as good as a new one", "statement": "After any sequence of migrations everything that reads the graph gives what the original graph says about where the vertices are now: checkValidity accepts it on every part, the loop over edges with getResidence, isResidentOn and isCut, the part weights with and without ghosts, the count of connected components, the second adjacencies and the colourings are those of the vertices and hyperedges a part then has.", "quantifier": "every distributed hypergraph, every sequence of migrations, every message, set and kernel order, every part", "why_tests_cant": "Arrays, counts and maps are rebuilt in every migration; a stale or misordered one shows only for some graph, plan, order and reader together.", "anchors": ["agi/agiMigrate.cpp: migrate, sendVertex, addEdges", "agi/agiValid.cpp: checkValidity", "agi/agiEdge.cpp: getResidence, isResidentOn, isCut", "partition/Metrics/engpar_metrics.cpp: getWeight", "partition/engpar.cpp: countDisconnected", "agi/agiConstruct.cpp: create_vev_adjacency, create_eve_adjacency", "partition/Coloring/engpar_kokkosColoring.cpp: EnGPar_KokkosColoring"]}
{"id": "C76", "title": "Whole sessions", "statement": "A program that builds a distributed hypergraph and then calls migrate, balance (with and without the part weight balancer), split onto a larger communicator, resetOwnership, and saveToFile followed by loadFromFile, any number of times in any order, never fails as long as every call is given what it needs; every call does to the current graph what it does to a new one; at the end all parts together still show the original hypergraph, every reader of the graph reports what it should, and getPartition tells where the vertices are that a part had when the original owners were last recorded.", "quantifier": "every distributed hypergraph, every finite sequence of these calls with every plan, parameters, answers of the partitioner, message orders and table orders", "why_tests_cant": "Each of the calls rebuilds or reads the same arrays, maps and flags; what one leaves behind may break another only in some order of calls that no test makes.", "anchors": ["agi/agiMigrate.cpp: migrate, repartition", "agi/agiVertex.cpp: resetOwnership, setOriginalOwners", "agi/agiIO.cpp: saveToFile, loadFromFile", "partition/Diffusive/src/engpar_balancer.cpp: balance, runStep, partWeightBalancer", "partition/Multilevel/engpar_split.cpp: split"]}
{"id": "C77", "title": "Many collectives one after the other", "statement": "Ranks that call the same collectives (sums, minima, maxima, barriers, exclusive scans) in the same order get from every call the result that call has on its own, although all collectives share one communicator without tags and ranks run ahead of each other: a message of one call is never taken for a message of another one. A rank that returns from a barrier or a reduction knows that every rank has entered that very call, and the sequence always ends.", "quantifier": "every number of ranks and of calls, every choice of collectives, contributions that may depend on earlier results, and every interleaving", "why_tests_cant": "Whether a fast rank's message of a later call can be received in an earlier one depends on the schedule; a test runs one or a few of them.", "anchors": ["pcu/pcu_coll.c: pcu_begin_coll, pcu_progress_coll, pcu_allreduce, pcu_scan, pcu_begin_barrier, pcu_barrier", "pcu/pcu_mpi.c: pcu_mpi_send, pcu_mpi_receive", "pcu/pcu.c: PCU_Add_Ints, PCU_Exscan_Ints, PCU_Barrier"]}
{"id": "C78", "title": "Whole programs of phases and collectives", "statement": "In a program of communication phases (Begin, Pack, Send, Receive loop) and collectives, the same on every rank, with collectives between phases, while packing or before the receive loop: every phase delivers to every rank exactly what was packed for it in that phase, once; every collective returns the combination of what was contributed to that call; nothing deadlocks and every execution ends with all phases over. The barriers of the phases are themselves collectives made of messages and share the communicator with the user's collectives.", "quantifier": "every number of ranks, every legal program, all data packed and contributed (which may depend on anything received before), every interleaving of all single messages", "why_tests_cant": "Phases, their barriers and the user's collectives interleave in unboundedly many ways; ranks are in different phases and calls at the same time.", "anchors": ["pcu/pcu_msg.c: pcu_msg_start, pcu_msg_pack, pcu_msg_send, receive_global, pcu_msg_receive", "pcu/pcu_coll.c: pcu_begin_coll, pcu_progress_coll, pcu_barrier, pcu_begin_barrier, pcu_barrier_done", "pcu/pcu.c: PCU_Comm_Begin, PCU_Comm_Pack, PCU_Comm_Send, PCU_Comm_Listen, PCU_Add_Ints, PCU_Exscan_Ints"]}
{"id": "C79", "title": "Handles on every machine", "statement": "Vertex and edge handles, which are local ids disguised as pointers, decode to the id (and edge type) they were made from on little- and big-endian machines, with 32-bit and with 64-bit local ids, for every graph whose counts fit in a local id; the loops over local and ghost vertices end, after yielding every handle.", "quantifier": "every byte order and size of local ids, every local id and edge type, every number of vertices, ghosts and edges", "why_tests_cant": "Tests run on one little-endian machine with small graphs; the bytes of the pointer that are read depend on compile-time options, and overflow shows only with 2^31 handles.", "anchors": ["agi/agi_typeconvert.cpp: toPtr, fromPtr", "agi/agiVertex.cpp: getVertex", "agi/agiEdge.cpp: getEdge, localID, u", "agi/agiIterate.cpp: iterate", "agi/CMakeLists.txt: LONG_LOCAL_INDICES, BIG_ENDIAN"]}
{"id": "C80", "title": "Inputs through the C and Fortran interface", "statement": "Calls that make inputs, set priorities, cut growth and ghosts, and give inputs to balance or split, in any order and mixed between inputs, have the documented effect: each balance and split runs with the settings made for its own input (the defaults otherwise), the input is used up, and the communicator is the one set last. Every function of the C header and of the Fortran module can be called and gets the arguments as it expects them.", "quantifier": "every sequence of calls on any number of inputs, all settings; every function of the interface, 32-bit and 64-bit local ids", "why_tests_cant": "Settings could leak between objects or be lost in orders no test tries; a function no test calls may not link.", "anchors": ["interfaces/cengpar.cpp", "interfaces/cengpar.h", "ftn/engpar.f90", "partition/engpar_input.cpp", "partition/Diffusive/engpar_diffusive_input.cpp", "partition/Multilevel/engpar_split_input.h", "partition/Diffusive/src/engpar_balancer.cpp: balance, ~Balancer", "partition/Multilevel/engpar_split.cpp: split"]}
{"id": "C81", "title": "Changing communicators", "statement": "When processes move from one communicator to the next with PCU_Switch_Comm, everything said about phases and collectives holds on each communicator with its own processes: what is received and what collectives return comes from that stay on that communicator only. Nobody is answered by a process that has not arrived; a process that leaves has had all its results, leaves no message behind, and begins the next communicator as new. If all processes visit their communicators in a common order, no job gets stuck, however much MPI makes switches wait for each other, and every job ends.", "quantifier": "any number of processes, communicators and stays, any programs of phases and collectives on each, any synchronisation by MPI_Comm_dup and MPI_Comm_free, all interleavings", "why_tests_cant": "Processes are on different communicators at the same time, with unbounded interleavings; an early leaver or late arriver shows only in rare schedules.", "anchors": ["pcu/pcu.c: PCU_Switch_Comm, PCU_Comm_Init", "pcu/pcu_pmpi.c: pcu_pmpi_switch, pcu_pmpi_init, pcu_pmpi_finalize", "pcu/pcu_msg.c", "pcu/pcu_coll.c", "partition/Multilevel/engpar_split.cpp: split"]}
{"id": "C82", "title": "A graph gives its memory back", "statement": "However a graph was made and whatever calls were made on it (construct vertices, edges, ghosts, remove edges, coordinates, weights, owners, second adjacencies, tags, plans, migrate, migrate weights, repartition, load), in any order and number, nothing is released twice or with the wrong form of delete, destroyGraph then succeeds, and afterwards exactly the tags and plans the user still holds are allocated: using a graph again and again does not make memory grow.", "quantifier": "every constructor, every finite sequence of calls, every edge type count, presence or absence of ghosts and several processes", "why_tests_cant": "A leak or double release depends on the order of calls and on the data (are there ghosts, was there an adjacency, coordinates); sequences are unbounded.", "anchors": ["agi/agiConstruct.cpp: constructVerts, constructEdges, constructGhosts, removeEdges, destroyData, create_vev_adjacency, create_eve_adjacency, destroyGraph", "agi/agiVertex.cpp: setCoords, setWeights, setOriginalOwners, resetOwnership", "agi/agiTag.cpp", "agi/agiMigration.cpp", "agi/agiMigrate.cpp: migrate, repartition", "agi/agiWeightMigrate.cpp", "agi/agiIO.cpp: loadFromFile", "interfaces/apfGraph.cpp", "interfaces/binGraph.cpp"]}
{"id": "C83", "title": "Balancing, splitting and asking give memory back", "statement": "Whatever sequence of balance (any criteria, steps, queues, trims, migrations, with or without the part weight balancer), weight balancing, split (ParMETIS or Zoltan, original and new parts), evaluatePartition, isResidentOn, isCut and walks over neighbours (also stopped early) is run on a graph, mixed with the calls on the graph itself, nothing is released twice or with the wrong form of delete, and after destroyGraph only the tags and plans the user still holds are allocated.", "quantifier": "every finite sequence of these calls, every number of criteria, steps, edges, seeds, senders and migrations", "why_tests_cant": "Each step takes different ways (no seeds, no edges, no migration, first or later criterion, one process); a leak or double release on one combination of ways appears only in that run, and runs are unbounded.", "anchors": ["partition/Diffusive/src/engpar_balancer.cpp: runStep, balance, partWeightBalancer", "partition/Diffusive/src/engpar_weightBalancer.cpp", "partition/Diffusive/src/engpar_queue.cpp: createDistanceQueue, createIterationQueue, bfs_push, bfs_pull", "partition/Diffusive/src/engpar_selector.cpp: trim, cancel", "partition/Multilevel/engpar_split.cpp", "partition/Multilevel/engpar_parmetis.cpp", "partition/engpar.cpp: evaluatePartition", "agi/agiEdge.cpp: isResidentOn, isCut", "agi/agiIterate.cpp"]}
{"id": "C84", "title": "Checking a graph comes back on all processes", "statement": "checkValidity, called on all processes, returns on all of them: no process waits in a sum for one that has already returned with an error; the answers are then those the checks on each part give, and every process accepts its part exactly when the part is right (for traditional graphs: when it has no edge from a vertex to itself).", "quantifier": "every distributed graph, right or wrong, every number of processes and edge types", "why_tests_cant": "The processes meet in sums between local checks; a process that finds an error returns at once, so whether the others wait for ever depends on which process finds which error where.", "anchors": ["agi/agiValid.cpp: checkValidity", "pcu/pcu.c: PCU_Add_Long"]}
{"id": "C85", "title": "Message passing neither leaks memory nor uses it after release", "statement": "Whatever calls of the communication library a process makes, no memory is released twice, released while a message is being sent from it, or accessed outside what was allocated; when a phase is over nothing of it is left but the ordering object; PCU_Comm_Free releases everything; while packing, the memory in use is at most one and a half times the bytes packed and a fixed amount per receiver.", "quantifier": "every sequence of calls, all message and operand sizes (also zero), every order of arrival, ordering on or off and switched at any time", "why_tests_cant": "Buffers are handed between lists, grown, reused and released depending on the whole history of calls and arrivals.", "anchors": ["pcu/pcu_buffer.c", "pcu/pcu_msg.c", "pcu/pcu_order.c", "pcu/pcu_coll.c: end_coll_step", "pcu/pcu.c", "pcu/noto/noto_malloc.c"]}
{"id": "C86", "title": "Texts of the balancer fit their arrays", "statement": "The texts the library puts together in arrays of fixed size - the imbalances shown before and after balancing (100 characters), the log entry with the balancer's parameters (1000), the message at the end of a criterion (200), the parameters handed to Zoltan (100) and the log entries of graph construction (45) - never exceed their arrays, and the numbers in them are the right ones, rounded to the digits shown.", "quantifier": "all numbers of criteria, parts, weights, tolerances and parameters", "why_tests_cant": "The length of a text depends on the number of digits of every value and on how many there are; no run shows the longest.", "anchors": ["partition/Metrics/engpar_metrics.cpp: getImbalances", "partition/Diffusive/src/engpar_balancer.cpp: balance", "partition/Multilevel/engpar_zoltan.cpp: setParameters", "agi/agiConstruct.cpp: constructGraph, constructVerts"]}
{"id": "C87", "title": "Pictures can be opened", "statement": "writeVTK leaves an index (prefix.pvtu) and a file for every part (prefixN.vtu). All are well-formed XML. The file of a part is an unstructured grid whose announced counts and arrays of numbers, read back word by word, are those of C61 (whole numbers exactly, coordinates to half a unit of the sixth decimal). The index announces the points and exactly the arrays of values the files of the parts have, and names the files of the parts so that a reader, looking names up from the directory of the index, finds them.", "quantifier": "every graph, tag, number of parts and prefix", "why_tests_cant": "Well-formedness and the agreement of index and files depend on the kind of graph, the tag, empty parts and the characters of the prefix; tests write a few pictures that nobody parses.", "anchors": ["agi/agiVTK.cpp: writeVTK, writePVTU, writePSources, writePPoints, writePPointData, writePoints, writeCells, writePointData"]}
