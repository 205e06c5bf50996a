{"id": "C01", "title": "PriorityQueue.pop returns the earliest live key", "statement": "After any history of construction, push and pop, pop() returns a pair (t, k) such that t is the time most recently pushed for node k, the pair had been pushed and not yet returned, and every other stored pair whose time is the most recent one pushed for its node has time >= t. Only superseded pairs are ever dropped silently.", "quantifier": "every list of initial keys, every interleaving of push(t, k) and pop() of any length, every linear order of times", "why_tests_cant": "heap shape depends on the whole operation history; ties and superseded keys only arise on particular interleavings", "anchors": ["queueing_tool/network/priority_queue.pyx: PriorityQueue.__init__, push, pop, heappop, _siftdown, _siftup, heapify"]}
{"id": "C02", "title": "PriorityQueue never touches memory outside its arrays", "statement": "With bounds checks compiled out, no push or pop reads or writes outside the allocated arrays, provided the queue was constructed from at least one key, all node numbers are below n, and pop is only called on a non-empty queue. (Without the first condition it does: push on a queue constructed empty writes past a zero-length array.)", "quantifier": "every key list, every n, every legal interleaving of push/pop of any length, including every array doubling", "why_tests_cant": "an out-of-bounds access in compiled code is silent; a test only sees the sizes it tries", "anchors": ["queueing_tool/network/priority_queue.pyx: PriorityQueue.push, pop, heappop, __init__ (boundscheck(False))"]}
{"id": "C03", "title": "PriorityQueue.pop answers None only when nothing live is stored", "statement": "pop() on a non-empty queue returns None exactly when every stored pair has been superseded by a later push for the same node, and then the queue is empty afterwards; otherwise it returns a pair.", "quantifier": "every reachable priority-queue state", "why_tests_cant": "requires states in which only superseded entries remain, reached only by specific histories", "anchors": ["queueing_tool/network/priority_queue.pyx: PriorityQueue.pop"]}
{"id": "C04", "title": "heap operations preserve contents and put the minimum first", "statement": "Pushing adds exactly the pushed element, popping removes exactly one occurrence of an element that is minimal under the order, heapify only permutes; afterwards the first element is minimal. This holds for the scheduler's heap and for the arrival/departure heaps of each queue.", "quantifier": "every list, every element, every linear order of keys (ties included)", "why_tests_cant": "sift loops are index arithmetic over every size; a wrong boundary shows only at particular sizes/orders", "anchors": ["queueing_tool/network/priority_queue.pyx: _siftdown, _siftup, heapify, heappop", "queueing_tool/queues/queue_servers.py: heappush/heappop on _arrivals/_departures"]}
{"id": "C05", "title": "queue census", "statement": "At every moment num_system equals the number of agents waiting (number_queued()) plus the number in service, and num_arrivals[0] = num_departures + num_system.", "quantifier": "every QueueServer or LossQueue, every sequence of API calls, every arrival/service function outcome", "why_tests_cant": "an induction over all histories", "anchors": ["queueing_tool/queues/queue_servers.py: QueueServer.next_event, set_num_servers, delay_service, set_active, clear"]}
{"id": "C06", "title": "total census reported to the network", "statement": "The number of agents a queue reports to its network (QueueNetwork.num_agents[k]) equals the agents scheduled to arrive plus those in the system, at every moment.", "quantifier": "every queue history, including agents handed over from other queues", "why_tests_cant": "an induction over all histories", "anchors": ["queueing_tool/queues/queue_servers.py: _num_total", "queueing_tool/network/queue_network.py: num_agents"]}
{"id": "C07", "title": "no agent waits while a server is idle", "statement": "Whenever number_queued() > 0, at least num_servers agents are in service.", "quantifier": "every QueueServer/LossQueue history including changes of the number of servers", "why_tests_cant": "depends on every order of arrivals, departures and server changes", "anchors": ["queueing_tool/queues/queue_servers.py: QueueServer.next_event, set_num_servers, _service_from_queue"]}
{"id": "C08", "title": "servers are never oversubscribed", "statement": "The number of agents in service never exceeds num_servers, except for agents whose service had already begun when the number of servers was lowered.", "quantifier": "every QueueServer history", "why_tests_cant": "needs particular interleavings of set_num_servers and events", "anchors": ["queueing_tool/queues/queue_servers.py: set_num_servers (agents_to_queue), next_event"]}
{"id": "C09", "title": "first come first served", "statement": "Agents begin service in exactly the order in which they were admitted: the sequence of agents whose queue_action(queue, 1) was called, followed by those still in queue, is the sequence of agents whose queue_action(queue, 0) was called.", "quantifier": "every QueueServer/LossQueue history, every service-time outcome, any number of servers and server changes", "why_tests_cant": "ordering over unbounded histories with adversarial service times", "anchors": ["queueing_tool/queues/queue_servers.py: next_event, _service_from_queue, queue"]}
{"id": "C10", "title": "every agent is served exactly once per visit", "statement": "Each admitted agent gets queue_action 0, then 1, then 2 exactly once per visit and in this order; departed agents plus agents in service are exactly the agents whose service started.", "quantifier": "every history", "why_tests_cant": "multiset identity over unbounded histories", "anchors": ["queueing_tool/queues/queue_servers.py: next_event"]}
{"id": "C11", "title": "the clock of a queue never runs backwards", "statement": "If arrival_f(t) >= t and service_f(t) >= t for every call, current_time never decreases under simulate/next_event and current_time <= time always.", "quantifier": "every history, every outcome of the two random functions", "why_tests_cant": "all interleavings of arrivals and departures", "anchors": ["queueing_tool/queues/queue_servers.py: _current_t, _time, _update_time, _add_arrival"]}
{"id": "C12", "title": "time is the time of the next event", "statement": "QueueServer.time is always the minimum over all scheduled arrivals and departures (infinity if there are none), and simulating one event sets current_time to exactly that value.", "quantifier": "every history", "why_tests_cant": "the attribute is cached and updated in several places", "anchors": ["queueing_tool/queues/queue_servers.py: _update_time, _add_arrival, next_event"]}
{"id": "C13", "title": "next_event_description predicts the next event", "statement": "If next_event_description() is 2 the next event returns a departing agent and adds one to num_departures; if 1 no agent is returned and an arrival is processed; if 0 next_event changes nothing at all.", "quantifier": "every reachable queue", "why_tests_cant": "ties between arrivals and departures and the sentinel at infinity", "anchors": ["queueing_tool/queues/queue_servers.py: next_event_description, next_event"]}
{"id": "C14", "title": "active_cap bounds the arrivals from outside", "statement": "A queue never creates more than active_cap agents of its own (num_arrivals[1] <= active_cap).", "quantifier": "every history", "why_tests_cant": "histories that deactivate and re-activate", "anchors": ["queueing_tool/queues/queue_servers.py: _add_arrival, set_active, active_cap"]}
{"id": "C15", "title": "no outside arrival at or after deactive_t", "statement": "Every agent created by a queue arrives strictly before deactive_t.", "quantifier": "every history, every arrival function", "why_tests_cant": "depends on arrival function outcomes", "anchors": ["queueing_tool/queues/queue_servers.py: _add_arrival, deactive_t"]}
{"id": "C16", "title": "agent ids are unique per queue", "statement": "All agents created by one queue since the last clear() have pairwise distinct agent_id, namely (edge index, 0), (edge index, 1), ...", "quantifier": "every history", "why_tests_cant": "unbounded history", "anchors": ["queueing_tool/queues/queue_servers.py: _add_arrival (AgentFactory)"]}
{"id": "C17", "title": "simulate(n) is exactly n events", "statement": "simulate(n=k) performs exactly k events while events remain: num_arrivals[0] + num_departures (+ num_blocked for a LossQueue) grows by exactly k; with nothing scheduled it does nothing.", "quantifier": "every queue state, every k", "why_tests_cant": "every k and state", "anchors": ["queueing_tool/queues/queue_servers.py: simulate, next_event"]}
{"id": "C18", "title": "simulate(t), simulate(nD), simulate(nA) stop exactly on time", "statement": "simulate(t=d) stops at the first event whose time is >= start + d (or when nothing is scheduled); simulate(nD=k) stops with exactly k more departures (or nothing scheduled); simulate(nA=k) with exactly k more created agents (or nothing scheduled).", "quantifier": "every queue state, every argument, every terminating run", "why_tests_cant": "stopping conditions over unbounded runs", "anchors": ["queueing_tool/queues/queue_servers.py: simulate"]}
{"id": "C19", "title": "delay_service postpones only the next departure", "statement": "delay_service changes only the departure time of the agent that was to depart next (new service time or the given time); all counts, the line and all other agents are unchanged; with nobody in service it does nothing.", "quantifier": "every reachable queue, every t", "why_tests_cant": "heap reshuffling on every state", "anchors": ["queueing_tool/queues/queue_servers.py: delay_service"]}
{"id": "C20", "title": "set_num_servers validates and starts the right number of services", "statement": "Non-integers raise TypeError, non-positive integers raise ValueError, in both cases nothing changes; otherwise num_servers becomes n and min(n - old, waiting) (at least 0) agents from the front of the line start service.", "quantifier": "every reachable queue and every n including infinity", "why_tests_cant": "every n and queue length; the pair (infinity, infinity) is special", "anchors": ["queueing_tool/queues/queue_servers.py: set_num_servers, _service_from_queue"]}
{"id": "C21", "title": "clear resets a queue", "statement": "After clear() a QueueServer/LossQueue is indistinguishable from a freshly constructed one with the same parameters (counts, clock, line, data, activity); in particular simulating it again after set_active behaves as the first time.", "quantifier": "every history before clear", "why_tests_cant": "hidden leftovers only show on later histories", "anchors": ["queueing_tool/queues/queue_servers.py: clear, NullQueue.clear", "queueing_tool/queues/queue_extentions.py: ResourceQueue.clear"]}
{"id": "C22", "title": "a LossQueue never exceeds its capacity", "statement": "num_system <= num_servers + buffer always (number of servers not lowered); at_capacity() is True exactly when equality holds.", "quantifier": "every LossQueue history, every buffer", "why_tests_cant": "all histories", "anchors": ["queueing_tool/queues/queue_servers.py: LossQueue.next_event, at_capacity"]}
{"id": "C23", "title": "an arrival is blocked exactly when the queue is full", "statement": "An arrival event at a LossQueue adds one to num_blocked and admits nobody if at_capacity(), and otherwise admits the agent and leaves num_blocked unchanged; every arrival attempt is either admitted or blocked, never both, and a blocked agent's blocked counter grows by one.", "quantifier": "every LossQueue history", "why_tests_cant": "all histories", "anchors": ["queueing_tool/queues/queue_servers.py: LossQueue.next_event", "queueing_tool/queues/agents.py: add_loss"]}
{"id": "C24", "title": "a blocked arrival keeps the outside stream alive", "statement": "When an outside arrival is blocked, the next outside arrival is still scheduled as long as the queue is active.", "quantifier": "every LossQueue and ResourceQueue history", "why_tests_cant": "only on blocking states", "anchors": ["queueing_tool/queues/queue_servers.py: LossQueue.next_event", "queueing_tool/queues/queue_extentions.py: ResourceQueue.next_event"]}
{"id": "C25", "title": "NullQueue absorbs every agent", "statement": "Whatever is sent to a NullQueue, it never has an event, never holds or queues an agent, is never at capacity, and contributes 0 to num_agents; if collecting data it records exactly one row [arrival time, 0, 0, 0, 0] per agent sent.", "quantifier": "every history", "why_tests_cant": "all histories", "anchors": ["queueing_tool/queues/queue_servers.py: NullQueue"]}
{"id": "C26", "title": "recorded rows are consistent", "statement": "With data collection on, every row of a departed agent satisfies arrival <= service start <= departure, and every row's number-in-system column counts the arriving agent itself.", "quantifier": "every QueueServer history with collection on throughout", "why_tests_cant": "all histories; rows are patched in place three times", "anchors": ["queueing_tool/queues/queue_servers.py: next_event, _service_from_queue, data"]}
{"id": "C27", "title": "one data row per arrival", "statement": "With collection on throughout, the number of rows recorded equals the number of arrivals (plus blocked arrivals for a LossQueue).", "quantifier": "every history", "why_tests_cant": "all histories", "anchors": ["queueing_tool/queues/queue_servers.py: next_event, LossQueue.next_event, data"]}
{"id": "C28", "title": "fetch_data returns all rows sorted by arrival", "statement": "fetch_data() returns exactly the recorded rows, each once, with the edge index appended, sorted by arrival time.", "quantifier": "every data content", "why_tests_cant": "all contents", "anchors": ["queueing_tool/queues/queue_servers.py: fetch_data"]}
{"id": "C29", "title": "set_inactive and set_active never double the outside stream", "statement": "At every moment (no ties with handed-over agents) a queue has at most one scheduled arrival of its own, however often set_active/set_inactive are called.", "quantifier": "every history of activation and events", "why_tests_cant": "interleavings of activation with pending arrivals", "anchors": ["queueing_tool/queues/queue_servers.py: set_active, set_inactive, _add_arrival, _next_ct"]}
{"id": "C30", "title": "poisson_random_measure returns the first accepted point after t", "statement": "The value returned is t plus a non-empty sum of exponential draws, is the first candidate accepted by the thinning test, and is never before t.", "quantifier": "every rate function, every sequence of draws", "why_tests_cant": "random draws", "anchors": ["queueing_tool/queues/queue_servers.py: poisson_random_measure"]}
{"id": "C31", "title": "routing draws by inverse distribution", "statement": "For n out-edges with probabilities pr and a uniform draw u, the chosen index is the least k with u <= pr[0]+...+pr[k] (n-1 if rounding leaves none); it is always a valid index; in exact arithmetic index k is chosen exactly for u in an interval of length pr[k], and an out-edge of probability zero is never chosen for u > 0.", "quantifier": "every probability vector of any length >= 2, every u", "why_tests_cant": "continuum of u and all vectors", "anchors": ["queueing_tool/queues/choice.pyx: _choice", "queueing_tool/queues/agents.py: Agent.desired_destination"]}
{"id": "C32", "title": "agents only move along out-edges", "statement": "The destination an Agent or GreedyAgent chooses is always the index of an edge leaving the vertex it is heading to; with a single out-edge it is that one.", "quantifier": "every network, every draw", "why_tests_cant": "all networks and draws", "anchors": ["queueing_tool/queues/agents.py: desired_destination", "queueing_tool/network/queue_network.py: out_edges"]}
{"id": "C33", "title": "GreedyAgent picks the first shortest line", "statement": "A GreedyAgent's destination has the minimal number of waiting agents among the out-edges and is the first such in the order of out_edges.", "quantifier": "every network state", "why_tests_cant": "all vectors and ties", "anchors": ["queueing_tool/queues/choice.pyx: _argmin", "queueing_tool/queues/agents.py: GreedyAgent.desired_destination"]}
{"id": "C34", "title": "set_transitions validates", "statement": "A dict with an unknown vertex, a row that does not sum to 1 at a vertex with out-edges, or a negative entry raises ValueError; a matrix of the wrong shape, with a non-terminal row not summing to 1 or with a negative entry raises ValueError and then nothing is changed; other types raise TypeError.", "quantifier": "every argument", "why_tests_cant": "all arguments", "anchors": ["queueing_tool/network/queue_network.py: set_transitions"]}
{"id": "C35", "title": "transitions returns what set_transitions stored", "statement": "After an accepted set_transitions(mat), transitions() gives, for every edge (u, v), mat[u][v] (0 if absent from a dict row), and entries of vertices not mentioned in a dict are unchanged; in both representations.", "quantifier": "every graph and matrix/dict", "why_tests_cant": "all graphs", "anchors": ["queueing_tool/network/queue_network.py: set_transitions, transitions"]}
{"id": "C36", "title": "routing rows are probability vectors", "statement": "At every vertex with out-edges the routing probabilities are non-negative and sum to 1, initially (uniform) and after any accepted set_transitions.", "quantifier": "every graph and history of set_transitions", "why_tests_cant": "all graphs and histories", "anchors": ["queueing_tool/network/queue_network.py: __init__ (_route_probs), set_transitions"]}
{"id": "C37", "title": "a rejected dict leaves the routing unchanged", "statement": "If set_transitions raises, the routing probabilities are exactly as before.", "quantifier": "every rejected argument", "why_tests_cant": "needs a dict whose later key is bad", "anchors": ["queueing_tool/network/queue_network.py: set_transitions"]}
{"id": "C38", "title": "generate_transition_matrix is row-stochastic on the edges", "statement": "Every entry is non-negative, entries off the edge set are 0, and every row of a vertex with out-edges sums to 1.", "quantifier": "every graph, every sequence of draws", "why_tests_cant": "all graphs and draws", "anchors": ["queueing_tool/graph/graph_generation.py: generate_transition_matrix"]}
{"id": "C39", "title": "events happen in time order", "statement": "Each simulated network event takes place at a queue whose next event time is minimal among all queues, at exactly that time.", "quantifier": "every network of QueueServer/LossQueue/NullQueue queues, every initialisation, every number of steps, every random outcome", "why_tests_cant": "needs the scheduler invariant over all histories", "anchors": ["queueing_tool/network/queue_network.py: _simulate_next_event, _fancy_heap"]}
{"id": "C40", "title": "the network clock never runs backwards", "statement": "current_time never decreases during simulate (arrival_f and service_f returning times no earlier than their argument), and every scheduled event lies at or after current_time.", "quantifier": "as above", "why_tests_cant": "all histories", "anchors": ["queueing_tool/network/queue_network.py: _simulate_next_event, current_time"]}
{"id": "C41", "title": "simulating never crashes", "statement": "For networks of QueueServer/LossQueue/NullQueue in which every queue whose target vertex has no out-edges is a NullQueue, with finite service times (or without self-loops), simulate never raises once initialised: the scheduler never hands out an empty answer and no lookup is out of range.", "quantifier": "as above", "why_tests_cant": "all histories", "anchors": ["queueing_tool/network/queue_network.py: _simulate_next_event", "queueing_tool/network/priority_queue.pyx: pop"]}
{"id": "C42", "title": "num_agents is exact", "statement": "num_agents[k] equals at every moment the number of agents at or scheduled to arrive at queue k.", "quantifier": "as above", "why_tests_cant": "all histories", "anchors": ["queueing_tool/network/queue_network.py: num_agents, _simulate_next_event, initialize"]}
{"id": "C43", "title": "a move conserves agents", "statement": "In a departure event that is not blocked exactly one agent leaves one queue and arrives at its destination at the same time; no other queue changes; the total number of agents changes only by outside arrivals created, agents absorbed by NullQueues and agents lost at full LossQueues.", "quantifier": "as above", "why_tests_cant": "all histories", "anchors": ["queueing_tool/network/queue_network.py: _simulate_next_event"]}
{"id": "C44", "title": "max_agents bounds the population", "statement": "The total of num_agents never exceeds a non-negative max_agents as long as initialize is called only on a new or cleared network. A single operation never brings it above max_agents, except initialize of a running network, which adds at most max_agents.", "quantifier": "every network and history", "why_tests_cant": "all histories", "anchors": ["queueing_tool/network/queue_network.py: max_agents, initialize, _simulate_next_event"]}
{"id": "C45", "title": "every simulated event is a real event", "statement": "As long as some queue has an event scheduled, simulate(n=1) performs one arrival, one departure or one blocking, and num_events counts exactly these.", "quantifier": "every network and history", "why_tests_cant": "needs duplicate scheduler entries for one queue", "anchors": ["queueing_tool/network/queue_network.py: num_events, _simulate_next_event", "queueing_tool/network/priority_queue.pyx: pop"]}
{"id": "C46", "title": "QueueNetwork.time is the time of the next event", "statement": "time equals the minimum of the queues' next event times.", "quantifier": "every network and history", "why_tests_cant": "needs superseded scheduler entries at the front", "anchors": ["queueing_tool/network/queue_network.py: time"]}
{"id": "C47", "title": "next_event_description of the network is right", "statement": "It names the kind and place of an event that is next in time, and says 'Nothing' exactly when no queue has an event scheduled.", "quantifier": "every network and history", "why_tests_cant": "all histories", "anchors": ["queueing_tool/network/queue_network.py: next_event_description"]}
{"id": "C48", "title": "blocking after service", "statement": "Under 'BAS' an agent whose destination is a full queue stays in service where it is and its departure moves to just after the destination's next departure; nobody else moves, the destination's num_blocked and the agent's blocked counter grow by one. Under 'RS' it instead gets a new service time at its current queue.", "quantifier": "every network with queues of any class, every state with a blocked departure", "why_tests_cant": "all states", "anchors": ["queueing_tool/network/queue_network.py: _simulate_next_event, blocking"]}
{"id": "C49", "title": "an agent inside the network is never lost", "statement": "An agent that leaves one queue for a LossQueue that is not at capacity is admitted there; agents are deleted only by a NullQueue or when arriving from outside.", "quantifier": "every network and history", "why_tests_cant": "needs simultaneous events", "anchors": ["queueing_tool/network/queue_network.py: _simulate_next_event", "queueing_tool/queues/queue_servers.py: LossQueue.next_event"]}
{"id": "C50", "title": "initialize activates what was asked", "statement": "initialize raises ValueError/TypeError/QueueingToolError as documented, activates exactly the selected queues that are not of edge type 0 (at most max_agents), and afterwards every queue with a scheduled event is in the schedule.", "quantifier": "every network and argument", "why_tests_cant": "all arguments", "anchors": ["queueing_tool/network/queue_network.py: initialize"]}
{"id": "C51", "title": "simulate requires initialize", "statement": "simulate raises QueueingToolError before initialize and after clear, and changes nothing then.", "quantifier": "every network", "why_tests_cant": "all histories", "anchors": ["queueing_tool/network/queue_network.py: simulate, clear, initialize"]}
{"id": "C52", "title": "clear resets the network", "statement": "After clear() the clock, event count and num_agents are zero, nothing is scheduled, and every queue is as after its own clear().", "quantifier": "every history", "why_tests_cant": "all histories", "anchors": ["queueing_tool/network/queue_network.py: clear"]}
{"id": "C53", "title": "copy simulates like the original", "statement": "Simulating a copy of a network with the same random outcomes produces the same queue states as simulating the original, and does not change the original.", "quantifier": "every network state and number of steps", "why_tests_cant": "all states", "anchors": ["queueing_tool/network/queue_network.py: copy"]}
{"id": "C54", "title": "queue selection", "statement": "An edge index selects that queue; an edge or list of edges selects exactly the queues on these edges; edge types select exactly the queues whose edge has one of these types; nothing given selects all queues.", "quantifier": "every graph and argument", "why_tests_cant": "all graphs", "anchors": ["queueing_tool/network/queue_network.py: _get_queues"]}
{"id": "C55", "title": "data views agree", "statement": "get_queue_data and get_agent_data contain the same rows: concatenating all agents' rows gives a permutation of the queue rows; each agent's rows are sorted by arrival; clear_data empties exactly the selected queues.", "quantifier": "every data content and selection", "why_tests_cant": "all contents", "anchors": ["queueing_tool/network/queue_network.py: get_queue_data, get_agent_data, clear_data, start_collecting_data, stop_collecting_data"]}
{"id": "C56", "title": "current_time stays finite", "statement": "simulate never moves current_time past the time of the last event.", "quantifier": "every network and history", "why_tests_cant": "needs exhaustion of all events", "anchors": ["queueing_tool/network/queue_network.py: _simulate_next_event"]}
{"id": "C57", "title": "edge_index numbers the edges 0..E-1", "statement": "edge_index is a bijection between the edges and 0..E-1 (increasing in the edge on construction) and stays one under add_edge, which never renumbers existing edges.", "quantifier": "every graph and sequence of add_edge", "why_tests_cant": "all graphs", "anchors": ["queueing_tool/graph/graph_wrapper.py: QueueNetworkDiGraph.__init__, add_edge"]}
{"id": "C58", "title": "adjust=1 removes dead ends", "statement": "adjacency2graph with adjust=1 gives every vertex an out-edge: exactly the vertices without out-edges get a loop of edge type 0; all other edges and types are kept and missing types become 1.", "quantifier": "every adjacency", "why_tests_cant": "all graphs", "anchors": ["queueing_tool/graph/graph_wrapper.py: adjacency2graph, _adjacency_adjust"]}
{"id": "C59", "title": "adjust=2 marks edges into dead ends", "statement": "With adjust=2 no edge is added; exactly the edges into vertices without out-edges get type 0; every other edge keeps its type (1 if none).", "quantifier": "every adjacency", "why_tests_cant": "all graphs", "anchors": ["queueing_tool/graph/graph_wrapper.py: _adjacency_adjust"]}
{"id": "C60", "title": "matrix and dict adjacency agree", "statement": "An adjacency matrix yields exactly the edges of its non-zero entries; a dict of lists and the equivalent dict of dicts yield the same graph; graph2dict is inverse to it.", "quantifier": "every adjacency", "why_tests_cant": "all graphs", "anchors": ["queueing_tool/graph/graph_wrapper.py: _matrix2dict, _dict2dict, adjacency2graph", "queueing_tool/graph/graph_functions.py: graph2dict"]}
{"id": "C61", "title": "each edge is drawn in its own queue's colour", "statement": "After construction and after reset_colors every edge has the colour of the queue on that edge.", "quantifier": "every graph", "why_tests_cant": "depends on the order of vertices in the graph", "anchors": ["queueing_tool/network/queue_network.py: reset_colors", "queueing_tool/graph/graph_preparation.py: _prepare_graph"]}
{"id": "C62", "title": "union-find answers connectivity", "statement": "find(a) == find(b) exactly when a and b have been connected by union calls; nClusters is the number of classes; size(s) the size of s's class; find terminates.", "quantifier": "every element set and every sequence of find/union/size", "why_tests_cant": "unbounded histories; path compression mutates on reads", "anchors": ["queueing_tool/union_find.py: UnionFind"]}
{"id": "C63", "title": "minimal_random_graph is connected and minimal", "statement": "For n >= 2 points the graph returned contains all n vertices, is connected, is symmetric, and there is a threshold such that all pairs strictly closer are edges, no pair farther is, and without its last pair it would not be connected.", "quantifier": "every n and point set", "why_tests_cant": "all point sets", "anchors": ["queueing_tool/graph/graph_generation.py: minimal_random_graph", "queueing_tool/union_find.py: UnionFind"]}
{"id": "C64", "title": "set_types_random assigns only given types", "statement": "Every non-loop edge gets one of the types in proportions, every loop one of the types in loop_proportions; proportions not summing to one raise ValueError.", "quantifier": "every graph and draw", "why_tests_cant": "all graphs", "anchors": ["queueing_tool/graph/graph_generation.py: set_types_random"]}
{"id": "C65", "title": "set_types_rank types loops by rank", "statement": "After set_types_rank every vertex whose rank is at least the (ceil(V*pType2))-th largest has a loop of type 3, the chosen near vertices have loops of type 2, and every other edge has type 1.", "quantifier": "every graph and rank vector", "why_tests_cant": "all graphs", "anchors": ["queueing_tool/graph/graph_generation.py: set_types_rank"]}
{"id": "C66", "title": "queue classes follow edge types", "statement": "Every edge carries one queue of the class registered for its type (defaults for missing types), stored at its edge index and told its own edge.", "quantifier": "every graph and q_classes", "why_tests_cant": "all graphs", "anchors": ["queueing_tool/graph/graph_preparation.py: _set_queues", "queueing_tool/network/queue_network.py: __init__"]}
{"id": "C67", "title": "colours stay in range", "statement": "Every colour component a queue reports lies in [0, 1] when its base colours do, and darkens monotonically with the number of agents.", "quantifier": "every queue state", "why_tests_cant": "all states", "anchors": ["queueing_tool/queues/queue_servers.py: _current_color", "queueing_tool/queues/queue_extentions.py: ResourceQueue._current_color"]}
{"id": "C68", "title": "a ResourceAgent takes one server per visit", "statement": "A visit of a ResourceAgent without a resource lowers num_servers of the ResourceQueue by exactly one (when it departs); arriving with a resource raises it by exactly one and deletes the agent; so servers plus resources carried are conserved.", "quantifier": "every ResourceQueue history", "why_tests_cant": "all histories", "anchors": ["queueing_tool/queues/queue_extentions.py: ResourceAgent.queue_action, ResourceQueue.next_event"]}
{"id": "C69", "title": "over_max counts overflows", "statement": "over_max counts exactly the times the number of servers was set above max_servers, and num_servers of a ResourceQueue never becomes negative through its agents.", "quantifier": "every ResourceQueue history", "why_tests_cant": "all histories", "anchors": ["queueing_tool/queues/queue_extentions.py: ResourceQueue.set_num_servers, ResourceAgent.queue_action"]}
{"id": "C70", "title": "deactive_t works on an InfoQueue", "statement": "An InfoQueue stops accepting outside arrivals at deactive_t like every other queue.", "quantifier": "every InfoQueue history", "why_tests_cant": "needs an arrival past deactive_t", "anchors": ["queueing_tool/queues/queue_extentions.py: InfoQueue._add_arrival"]}
{"id": "C71", "title": "network information only gets newer", "statement": "The time stamps an InfoQueue or InfoAgent holds about other queues never decrease while information is exchanged, and after an arrival the queue's stamps are at least as new as the agent's.", "quantifier": "every exchange history", "why_tests_cant": "all histories", "anchors": ["queueing_tool/queues/queue_extentions.py: InfoQueue.extract_information, InfoAgent.queue_action"]}
{"id": "C72", "title": "agent ids are unique in the network", "statement": "At every moment no two agents anywhere in a network have the same agent_id; an id (k, i) belongs to the i-th agent created at queue k, and while the network is simulated ids of agents that left are not used again.", "quantifier": "every network with queues of any class, every history (construction, initialize, simulate, copy, data and transition changes, clear), every random outcome", "why_tests_cant": "an induction over all histories and all queues at once", "anchors": ["queueing_tool/queues/queue_servers.py: QueueServer._add_arrival (oArrivals)", "queueing_tool/network/queue_network.py: _simulate_next_event, initialize"]}
{"id": "C73", "title": "networks made from graphs are well formed", "statement": "A QueueNetwork made with adjust_graph=True from any graph with vertices 0..V-1, classes of any kind (NullQueue for type 0) and arrival/service functions that do not go back in time satisfies all structural hypotheses of the network properties: queue k is on edge number k, the out_edges list of each vertex holds exactly the numbers of its out-edges by increasing target (in_edges: in-edges by increasing source), and every edge that does not end in a NullQueue leads to a vertex with an out-edge.", "quantifier": "every graph, class and argument dict", "why_tests_cant": "all graphs; connects the graph layer to the simulation layer", "anchors": ["queueing_tool/network/queue_network.py: __init__", "queueing_tool/graph/graph_preparation.py: _prepare_graph, _set_queues"]}
{"id": "C74", "title": "agents follow the edges of the network", "statement": "Whenever an agent leaves a queue for another, the new edge is one of the out-edges of the vertex it has reached, and it is the one the agent's rule selects: the first shortest line for a GreedyAgent, inverse transform sampling of the row of the vertex otherwise. So in a network made from a graph the edges an agent visits form a directed path of that graph.", "quantifier": "every network with queues of any class, every history, every random outcome", "why_tests_cant": "an induction over histories that ties routing, scheduling and graph together", "anchors": ["queueing_tool/network/queue_network.py: _simulate_next_event", "queueing_tool/queues/agents.py: desired_destination"]}
{"id": "C75", "title": "a ResourceQueue keeps its books", "statement": "In every history of a ResourceQueue num_system counts the agents waiting and in service, _num_total those and the scheduled ones, every agent admitted has departed, waits or is in service, and next_event never raises.", "quantifier": "every ResourceQueue history", "why_tests_cant": "all histories", "anchors": ["queueing_tool/queues/queue_extentions.py: ResourceQueue.next_event", "queueing_tool/queues/queue_servers.py: QueueServer.next_event"]}
{"id": "C76", "title": "generate_random_graph", "statement": "For n >= 2 and accepted proportions generate_random_graph returns a connected graph on the vertices 0..n-1 whose other edges are those of minimal_random_graph, with a loop at v exactly when the draw for v is below prob_loop, and every edge has one of the types given for its kind, of positive proportion; it raises exactly if the proportions are not accepted.", "quantifier": "every n, point set, draw and proportions", "why_tests_cant": "all graphs and draws", "anchors": ["queueing_tool/graph/graph_generation.py: generate_random_graph"]}
{"id": "C77", "title": "generate_pagerank_graph", "statement": "For n >= 2 and 1 <= ceil(n*pType2) <= n generate_pagerank_graph succeeds and returns a connected graph on 0..n-1: the minimal graph, a loop of type 3 at the vertices first by page rank, a loop of type 2 at the chosen near vertices, all else of type 1.", "quantifier": "every n, point set and rank vector", "why_tests_cant": "all graphs", "anchors": ["queueing_tool/graph/graph_generation.py: generate_pagerank_graph"]}
{"id": "C78", "title": "queues in a network obey the laws of queues", "statement": "Every QueueServer, LossQueue and ResourceQueue of a network that was constructed, initialized, simulated, stopped, cleared or changed in any way has gone through a history of calls of its own methods, with agents handed over no earlier than its clock; so census, first-come-first-served service, work conservation, and the limits on servers and room hold for its QueueServers and LossQueues at all times.", "quantifier": "every network with queues of any class, every history, every queue", "why_tests_cant": "a refinement between two transition systems", "anchors": ["queueing_tool/network/queue_network.py: _simulate_next_event, initialize, clear", "queueing_tool/queues/queue_servers.py: QueueServer, LossQueue"]}
{"id": "C79", "title": "set_num_servers on a running network", "statement": "After set_num_servers on a queue of a network that is being simulated the events are still performed in the order of their times and the clock does not run backwards.", "quantifier": "every network state and number", "why_tests_cant": "needs waiting agents at a queue whose servers are raised between two events", "anchors": ["queueing_tool/queues/queue_servers.py: QueueServer.set_num_servers, _service_from_queue", "queueing_tool/network/queue_network.py: _simulate_next_event"]}
{"id": "C80", "title": "_update_all_colors brings a drawing up to date", "statement": "After _update_all_colors every edge shows the present colour of its queue, every vertex that has an edge shows the rim colour of its loop (of the network, without a loop) and the fill colour of its loop (of the load of the queues leading to it, without a loop or with one of type 0); nothing else changes and nothing raises.", "quantifier": "every network, state and earlier colours", "why_tests_cant": "a loop over the edges with flags per vertex: the outcome depends on the order of all edges", "anchors": ["queueing_tool/network/queue_network.py: _update_all_colors, _update_vertex_color, show_active, show_type"]}
{"id": "C81", "title": "an animation shows the simulation", "statement": "The events that animate draws change the network exactly as those of simulate do, drawing never raises, and after every event the colours of all edges and vertices are the present ones.", "quantifier": "every network state, any number of events, every random outcome", "why_tests_cant": "an invariant over all event sequences that relates incremental repainting to the state", "anchors": ["queueing_tool/network/queue_network.py: _simulate_next_event (slow=True), _update_graph_colors, _update_vertex_color, animate"]}
{"id": "C82", "title": "Little's law", "statement": "With data collected, the integral over time of the number in the system (waiting, in service) along a history equals the sum over the recorded rows of the time in the system (waiting, in service), plus the time those still here have been here; so when all have left the time average of num_system is the rate of departures times the mean recorded time in the system.", "quantifier": "every QueueServer/LossQueue history, every arrival and service function, every measure of time", "why_tests_cant": "an identity between a time integral over an unbounded history and the data", "anchors": ["queueing_tool/queues/queue_servers.py: QueueServer.next_event, set_num_servers, delay_service, fetch_data; LossQueue.next_event"]}
{"id": "C83", "title": "waiting times obey the recursion of a first-come-first-served queue", "statement": "With n servers the i-th admitted agent starts at the first time, not before its arrival, at which fewer than n of the services of the agents admitted before it are going on, and leaves when service_f of that start says; for one server that is Lindley's recursion, with infinitely many servers everybody starts on arrival.", "quantifier": "every QueueServer/LossQueue history without changes of servers or delays, every arrival and service function", "why_tests_cant": "a refinement of an event-driven program to a recursion, over unbounded histories", "anchors": ["queueing_tool/queues/queue_servers.py: QueueServer.next_event, _service_from_queue; LossQueue.next_event"]}
{"id": "C84", "title": "faster queues are faster", "statement": "If one queue has at least as many servers as another, its arrivals are admitted no later and its services take no longer, then each service starts and ends no later in it.", "quantifier": "every two QueueServer/LossQueue histories", "why_tests_cant": "compares two unbounded executions", "anchors": ["queueing_tool/queues/queue_servers.py: QueueServer.next_event, _service_from_queue; LossQueue.next_event"]}
{"id": "C85", "title": "the data of an agent are one journey", "statement": "With data collected throughout, the rows that all queues of a network have recorded for an agent are, in one order, the visits of one journey: it starts at the queue that created the agent, each visit but the last has arrival <= start <= departure, the next begins when it ends and at an edge out of the vertex it led to; an agent waiting or in service is on its last visit, an agent that is scheduled has finished its last one, an agent that is gone was last recorded at a NullQueue, turned away by a LossQueue or ResourceQueue, or recorded bringing a resource back (arrival = start = departure) at a ResourceQueue. So the recorded times in the system add up to the time from first arrival to last departure.", "quantifier": "every network history without clear and changes of collection, every agent, every random outcome", "why_tests_cant": "an invariant over all histories that ties the data of all queues together", "anchors": ["queueing_tool/network/queue_network.py: _simulate_next_event, initialize, get_agent_data", "queueing_tool/queues/queue_servers.py: QueueServer.next_event, NullQueue.next_event"]}
{"id": "C86", "title": "Little's law in a network", "statement": "With data collected, the integral over the clock of the network of the number in the system (waiting, in service) at a queue equals the total of the times recorded in its rows plus the time those still there have been there; summed over the queues, when all have left, the integral of the number in the network is the sum of all recorded times in the system.", "quantifier": "every network history without clear, changes of collection and of servers; every QueueServer and LossQueue, beside queues of any class, every random outcome, every measure of time", "why_tests_cant": "an identity between an integral along an unbounded history of the network and the data of its queues", "anchors": ["queueing_tool/network/queue_network.py: _simulate_next_event, simulate", "queueing_tool/queues/queue_servers.py: QueueServer.next_event, LossQueue.next_event"]}
{"id": "C87", "title": "networks without cycles run empty", "statement": "If the QueueServers and LossQueues of a network can be ranked so that agents only move to queues of lower rank, and every active queue has a finite active_cap, then after finitely many events nobody is in the network and no event is scheduled; blocked agents, who keep trying, do get on in the end.", "quantifier": "every such network, every state reached, both rules of blocking, every random outcome", "why_tests_cant": "termination of an event loop in which events may create agents and blocked agents repeat their departures", "anchors": ["queueing_tool/network/queue_network.py: _simulate_next_event, simulate", "queueing_tool/queues/queue_servers.py: QueueServer.next_event, delay_service, LossQueue.at_capacity"]}
{"id": "C88", "title": "simulate(t=d) ends", "statement": "If services, interarrival times and the delays of retries are bounded below by a positive number (in general: if only finitely many of them in a row fit before any time), then simulate(t=d) ends in every network, also in those with cycles and with queues that block each other for ever, and the clock has then moved on by d.", "quantifier": "every network and state reached, both rules of blocking, every random outcome", "why_tests_cant": "termination of a while loop whose number of iterations has no a-priori bound", "anchors": ["queueing_tool/network/queue_network.py: simulate, _simulate_next_event", "queueing_tool/queues/queue_servers.py: QueueServer.next_event, delay_service"]}
{"id": "C89", "title": "a drawing shows the graph", "statement": "In the arrays made by lines_scatter_args, point v is vertex v, line i is edge number i and joins the points of its ends, there are no other points or lines, and each line and each point has the colour its edge or vertex was given last. Drawing works unless positions are passed and one is missing.", "quantifier": "every graph, every sequence of set_pos, set_vp, set_ep, new_edge_property, new_vertex_property and add_edge, every order of nodes and edges", "why_tests_cant": "depends on the order in which nodes and edges were inserted and on all earlier calls", "anchors": ["queueing_tool/graph/graph_wrapper.py: set_pos, set_vp, set_ep, new_vertex_property, new_edge_property, lines_scatter_args"]}
{"id": "C90", "title": "vertices are drawn at their positions", "statement": "Vertex v is drawn at the position that was passed for v, or at its property pos.", "quantifier": "every graph, every dict of positions", "why_tests_cant": "wrong only for some orders of insertion of the nodes, and the picture still looks like a graph", "anchors": ["queueing_tool/graph/graph_wrapper.py: __init__, set_pos, lines_scatter_args", "queueing_tool/graph/graph_generation.py: minimal_random_graph"]}
{"id": "C91", "title": "get_edge_type and out_neighbours", "statement": "get_edge_type(t) returns exactly the edges of type t, each once; set_ep(e, 'edge_type', t) moves e to type t and nothing else; out_neighbours(v) are the ends of the edges from v, each once.", "quantifier": "every graph made by the constructor, add_edge, set_ep and new_edge_property", "why_tests_cant": "ranges over all graphs and histories of calls", "anchors": ["queueing_tool/graph/graph_wrapper.py: get_edge_type, out_neighbours, set_ep"]}
{"id": "C92", "title": "generated networks run", "statement": "A network made from generate_pagerank_graph(n) or generate_random_graph(n), n >= 2, has the edges and types of the graph, can be initialised with any positive number of active queues and simulated for any number of events; nothing raises.", "quantifier": "every number of vertices, all random points, ranks, types, routing and times", "why_tests_cant": "composes generation, preparation, construction, initialisation and simulation over all random outcomes", "anchors": ["queueing_tool/graph/graph_generation.py: generate_random_graph, generate_pagerank_graph", "queueing_tool/graph/graph_preparation.py: _prepare_graph", "queueing_tool/network/queue_network.py: __init__, initialize, simulate"]}
{"id": "C93", "title": "edge lengths are distances on the earth", "statement": "add_edge_lengths gives every edge a length, the distance on the earth of the positions of its ends, rounded; the distance is symmetric, zero only between equal points and satisfies the triangle inequality.", "quantifier": "every graph, all real coordinates", "why_tests_cant": "an identity of real trigonometric functions for all points", "anchors": ["queueing_tool/graph/graph_functions.py: _calculate_distance", "queueing_tool/graph/graph_preparation.py: add_edge_lengths"]}
{"id": "C94", "title": "show_type and show_active show types and active queues", "statement": "show_type(t) draws the graph with exactly the lines of the edges of type t dark and exactly the vertices with a loop of type t highlighted; show_active() with exactly the lines of active queues dark and exactly the vertices coloured that an edge with an active queue leads to. The graph does not change.", "quantifier": "every graph with arrays made by any sequence of calls, every type, every set of active queues", "why_tests_cant": "ranges over all graphs, numberings and earlier colours", "anchors": ["queueing_tool/network/queue_network.py: show_type, show_active, draw", "queueing_tool/graph/graph_wrapper.py: set_vp, set_ep, lines_scatter_args"]}
{"id": "C95", "title": "poisson_random_measure gives a Poisson process", "statement": "If rate is measurable with values in [0, rate_max], the times returned by repeated calls t = poisson_random_measure(t, rate, rate_max) form a Poisson process: the numbers of arrivals in consecutive intervals are independent and Poisson distributed with the integrals of rate as means; the next arrival after t comes by s with probability 1 - exp(-integral); the loop ends with probability one exactly if the integral of the rate is infinite.", "quantifier": "every measurable rate function, every rate_max, every list of intervals and counts, over the law of all independent exponential and uniform draws", "why_tests_cant": "a statement about probabilities over infinitely many random draws for all rate functions; samples can only make it plausible", "anchors": ["queueing_tool/queues/queue_servers.py: poisson_random_measure"]}
{"id": "C96", "title": "agents are sent along the out-edges with the given probabilities, independently of the past", "statement": "If uniform() gives independent uniform draws then, whatever has happened so far and whatever the arrival and service times are, an agent (not greedy) about to leave a queue that ends at vertex v is sent to an out-edge e of v with the probability given for e. So the chance that an agent is sent along a given journey is the product of the probabilities along it, if it gets to leave each queue of it, and never more.", "quantifier": "every network with queues of any class, every state reached, every number of events, every event of the past, every agent and journey", "why_tests_cant": "a statement about conditional probabilities over all infinite sequences of draws and all pasts", "anchors": ["queueing_tool/network/queue_network.py: _simulate_next_event", "queueing_tool/queues/agents.py: Agent.desired_destination", "queueing_tool/queues/choice.pyx: _choice"]}
{"id": "C97", "title": "agents that are held back", "statement": "An agent that is held back because the LossQueue or ResourceQueue it wants to enter is full draws a new destination at its next attempt, with the same probabilities as before, under both blocking policies; the docstring says that it waits for that queue. With only one out-edge it tries the same queue again.", "quantifier": "every network, every journey; both policies", "why_tests_cant": "depends on later random draws and on the states of two queues", "anchors": ["queueing_tool/network/queue_network.py: QueueNetwork (blocking), _simulate_next_event", "queueing_tool/queues/agents.py: Agent.desired_destination"]}
{"id": "C98", "title": "networks with ResourceQueues perform events in order", "statement": "In a network whose queues are of any class, ResourceQueues and ResourceAgents included, an event that changes a queue is an arrival, a move or a blocking of one agent, at the earliest next event time of all queues; no agent has an earlier event ahead. The clock never runs back and nothing is scheduled before it.", "quantifier": "every network of QueueServers, LossQueues, NullQueues and ResourceQueues, every history (set_num_servers only where it starts no service, initialize of a running network only where it schedules nothing before the clock), every random outcome", "why_tests_cant": "an invariant over all event sequences; ResourceQueues change their servers and delete agents in the middle of events", "anchors": ["queueing_tool/network/queue_network.py: _simulate_next_event, simulate", "queueing_tool/queues/queue_extentions.py: ResourceQueue.next_event"]}
{"id": "C99", "title": "networks with ResourceQueues do not crash", "statement": "If no queue is an out-edge of its own target, simulate never raises in an initialised network with queues of any class, and num_agents is exact. With such loops the only possible error is a TypeError from an empty answer of the scheduler, and a ResourceQueue on a loop can cause it though all times are finite.", "quantifier": "every such network, every history, every random outcome", "why_tests_cant": "all histories; the crash needs a deposit on a loop followed by a second visit", "anchors": ["queueing_tool/network/queue_network.py: _simulate_next_event, simulate", "queueing_tool/queues/queue_extentions.py: ResourceQueue.next_event", "queueing_tool/network/priority_queue.pyx: pop"]}
{"id": "C100", "title": "agents are conserved in networks with ResourceQueues", "statement": "In each event at most one agent comes from outside, with the next id of its queue, and at most one is gone: to a NullQueue, turned away by a LossQueue or ResourceQueue, or after leaving its resource at a ResourceQueue, which then has one server more. Nobody else appears, disappears or is duplicated, and there are never more than max_agents agents.", "quantifier": "every network with queues of any class, every history, every random outcome", "why_tests_cant": "all histories", "anchors": ["queueing_tool/network/queue_network.py: _simulate_next_event, initialize", "queueing_tool/queues/queue_extentions.py: ResourceQueue.next_event"]}
{"id": "C101", "title": "resources are never created in a network", "statement": "The servers of all ResourceQueues plus the resources carried by agents anywhere in the network never become more while the network is simulated, if agents come into the network without resources.", "quantifier": "every network with ResourceQueues of finitely many servers, every state reached, any number of events", "why_tests_cant": "a sum over all queues and agents along all histories", "anchors": ["queueing_tool/queues/queue_extentions.py: ResourceAgent.queue_action, ResourceQueue.next_event", "queueing_tool/network/queue_network.py: _simulate_next_event"]}
{"id": "C102", "title": "the outside stream of a ResourceQueue", "statement": "An arrival at a ResourceQueue that brings a resource, or a ResourceAgent that finds no idle server, ends the outside stream of the queue even if the queue is active; every other arrival keeps it, drawing the next arrival when the last one drawn is due. A stream that has ended stays dead, whatever events happen and however often set_active is called, until an agent comes from elsewhere or the queue is made inactive.", "quantifier": "every history of a ResourceQueue, every arrival and service function", "why_tests_cant": "depends on the kind of the arriving agent and on the servers at that time", "anchors": ["queueing_tool/queues/queue_extentions.py: ResourceQueue.next_event", "queueing_tool/queues/queue_servers.py: QueueServer.set_active, _add_arrival"]}
{"id": "C103", "title": "agents that are held back for ever", "statement": "A full LossQueue or ResourceQueue holds back every agent that wants to enter from another queue, also one that would only leave a resource there. With blocking='BAS', if nobody is in service in the full queue, the agent's departure is set to infinity, and an agent whose departure is set to infinity stays where it is for ever. So agents can be locked out by the ResourceQueue they bring resources back to.", "quantifier": "every network with queues of any class, every state reached, any number of events", "why_tests_cant": "the deadlock needs all resources to be out at the moment one is brought back", "anchors": ["queueing_tool/network/queue_network.py: _simulate_next_event (BAS)", "queueing_tool/queues/queue_servers.py: LossQueue.at_capacity, QueueServer.delay_service", "queueing_tool/queues/queue_extentions.py: ResourceQueue"]}
{"id": "C104", "title": "the graph of a copied network", "statement": "The graph of QueueNetwork.copy() has the vertices, edges and properties of the original but an empty edge_index: get_agent_data, get_queue_data, initialize, clear_data and start/stop_collecting_data select queues by number or select all queues as before, but raise KeyError if an edge is named or if an edge type is asked for that some edge has; is_edge is False of every edge; an edge added to it gets number 0 and so names the first queue; no edge can be coloured and a copy with an edge cannot be drawn, whatever positions are passed, nor shown by show_active or show_type.", "quantifier": "every graph, every selection, every edge added", "why_tests_cant": "quantifies over all graphs; shows only when a copy is used with edges", "anchors": ["queueing_tool/network/queue_network.py: copy, _get_queues, show_active, show_type, draw", "queueing_tool/graph/graph_wrapper.py: QueueNetworkDiGraph.__init__, is_edge, add_edge, set_ep, lines_scatter_args"]}
{"id": "C105", "title": "UnionFind.find takes few steps", "statement": "In a UnionFind made by any sequence of union and find, find(s) reaches the leader of the set of s in k steps where 2**k is at most the size of the set; then every element it passed is one step from the leader and no other element's leader has changed.", "quantifier": "every sequence of operations, every element", "why_tests_cant": "a bound over all histories", "anchors": ["queueing_tool/union_find.py: UnionFind.find, union"]}
{"id": "C106", "title": "what a ResourceQueue records", "statement": "Every arrival at a ResourceQueue that collects data adds exactly one row to the arriving agent's data: for an agent that brings a resource, arrival, service start and departure are the time of arrival; for one that is turned away start and departure are 0; for one that is admitted the row counts it among those in the system, has the start of service if it is served at once, and counts it among those waiting if there were fewer servers than agents before it acted on the queue. A departure completes the last row of the agent and enters the service start of the agent taken into service. Nothing else is recorded.", "quantifier": "every history of a ResourceQueue, every arrival and departure", "why_tests_cant": "depends on the kind of the agent, its resource, and the changing number of servers", "anchors": ["queueing_tool/queues/queue_extentions.py: ResourceQueue.next_event", "queueing_tool/queues/queue_servers.py: QueueServer.next_event, LossQueue.next_event"]}
{"id": "C107", "title": "simulate of a queue ends", "statement": "simulate(nA=m) of a queue always ends, after at most twice the arrivals scheduled and m, plus the agents waiting and in service, events. simulate(t=d) ends if only finitely many interarrival times and services in a row fit before any time, and simulate(nD=m) does if moreover the queue has a server and services are finite; both are true if interarrival times and services are bounded below by a positive number and finite. Otherwise they may never end: simulate(t=1) with interarrival times zero, simulate(nD=1) with infinite services.", "quantifier": "every QueueServer or LossQueue, every state reached, every arrival and service function", "why_tests_cant": "termination of while loops whose number of iterations has no a-priori bound, and non-termination", "anchors": ["queueing_tool/queues/queue_servers.py: QueueServer.simulate, next_event; LossQueue.next_event"]}
{"id": "C108", "title": "random types are independent with the given proportions", "statement": "set_types_random gives the edges independent types: the chance that any chosen edges get given types is the product of the proportions of these types, those for loops if the edge is a loop. generate_random_graph gives each vertex a loop with probability prob_loop, independently of the others, of the types and of the places of the vertices, if it is called without a seed. With a seed the types of edges are functions of the places. The places are independent and uniform in a square, and vertices closer than some distance r are joined, none farther apart are, and r is the smallest distance for which the graph is connected.", "quantifier": "every graph, every proportions with accepted sums, every set of edges and types, every set of loops, over the law of independent uniform draws", "why_tests_cant": "a statement about probabilities over all graphs and draws", "anchors": ["queueing_tool/graph/graph_generation.py: set_types_random, generate_random_graph, minimal_random_graph"]}
{"id": "C109", "title": "initialize of a running network", "statement": "initialize may be called again while a network is running: it keeps the clock, schedules nothing before it, and the clock does not run backwards afterwards.", "quantifier": "every network, every state reached, every selection of queues", "why_tests_cant": "depends on the private clock of each queue selected", "anchors": ["queueing_tool/network/queue_network.py: initialize", "queueing_tool/queues/queue_servers.py: QueueServer.set_active, _add_arrival"]}
{"id": "C110", "title": "a queue that stops being active stays so", "statement": "simulate never makes a queue active again, and nobody comes from outside to a queue that is not active; so when no queue is active agents only leave. A queue becomes inactive in an event only if max_agents is reached, at its deactive_t or at its active_cap. When max_agents is reached nobody comes from outside, and each queue at which somebody arrives becomes inactive; hence a network that has once been full can stay empty for ever.", "quantifier": "every network with queues of any class, every state reached, any number of events", "why_tests_cant": "a property of all later events of all networks; the population may be far below max_agents when it shows", "anchors": ["queueing_tool/network/queue_network.py: _simulate_next_event, initialize (max_agents)", "queueing_tool/queues/queue_servers.py: QueueServer._add_arrival, next_event"]}
{"id": "C111", "title": "in the long run agents are sent along the out-edges in the given proportions", "statement": "Of the first K agents (not greedy) that leave queues ending at vertex v, the share that is sent to out-edge e differs from the probability given for e by eps or more with a chance of at most 2 exp(-2 K eps^2). If agents leave such queues for ever, the share of e tends to that probability, with probability one.", "quantifier": "every network with queues of any class, every state reached, every vertex and out-edge, every K and eps, over the law of independent uniform draws", "why_tests_cant": "a statement about limits over infinite runs, for almost all sequences of draws", "anchors": ["queueing_tool/network/queue_network.py: _simulate_next_event, simulate", "queueing_tool/queues/agents.py: Agent.desired_destination", "queueing_tool/queues/choice.pyx: _choice"]}
{"id": "C112", "title": "agents come from outside as arrival_f says, with poisson_random_measure as a Poisson process", "statement": "The agents that come from outside to a queue made active by initialize are numbered 0, 1, ...; the first comes at the time arrival_f returns for time 0, each other at the time it returns for the time of the one before, whatever else arrives at the queue and happens in the network, as long as the queue is active. If arrival_f is poisson_random_measure with a measurable rate in [0, rate_max] of infinite integral, and the network has come past time u with the queue still active, their numbers in consecutive intervals until u are independent and Poisson distributed with the integrals of the rate as means. simulate keeps a queue active if max_agents, active_cap and deactive_t are infinite and arrival times finite.", "quantifier": "every QueueServer and LossQueue of a network with queues of any class, every history without further calls of initialize and clear, every random outcome; for the law: every rate function, every list of intervals and counts, over the law of all independent exponential and uniform draws", "why_tests_cant": "ties a stream of random times to all histories of a network; a statement about probabilities over infinitely many draws", "anchors": ["queueing_tool/network/queue_network.py: initialize, _simulate_next_event, simulate", "queueing_tool/queues/queue_servers.py: poisson_random_measure, QueueServer.set_active, _add_arrival, next_event"]}
{"id": "C113", "title": "what InfoAgent.stats contains", "statement": "At an InfoQueue that collects data, each visit of an InfoAgent that is not turned away adds minus the time of arrival to stats[n, 0], and then, once when its service starts and once more when it departs, the time it waited; stats[n, 1] counts those of these numbers that are positive, so 2 for one visit with waiting; stats[n, 2] counts the visits turned away. With exact arithmetic stats[n, 0] is the sum of 2 * (time waited) - (time of arrival) over the completed visits. At an InfoQueue that does not collect data only stats[n, 2] ever changes.", "quantifier": "every InfoQueue with forward arrival and service functions, every history without clear and without switching data collection, every agent, every arithmetic of the array", "why_tests_cant": "a relation between two records kept by different objects over all histories", "anchors": ["queueing_tool/queues/queue_extentions.py: InfoAgent.queue_action, add_loss", "queueing_tool/queues/queue_servers.py: QueueServer.next_event, _service_from_queue", "queueing_tool/queues/queue_servers.py: LossQueue.next_event"]}
{"id": "C114", "title": "simulate(t=d) ends in networks with ResourceQueues", "statement": "If only finitely many services, interarrival times and retries of blocked agents in a row fit before any time, simulate(t=d) of a network with queues of any class ends, also if agents are locked out for ever. If no queue leads to itself the clock has then got to the end of the period; otherwise simulate may have raised TypeError instead.", "quantifier": "every network with queues of any class, every state reached, every d", "why_tests_cant": "termination of a while loop whose number of iterations has no a-priori bound", "anchors": ["queueing_tool/network/queue_network.py: simulate, _simulate_next_event", "queueing_tool/queues/queue_extentions.py: ResourceQueue.next_event"]}
{"id": "C115", "title": "blocked agents whose delay is rounded away", "statement": "With blocking='BAS' a blocked agent tries again EPS * uniform(0.33, 0.66) after the next departure from the queue it waits for. If this sum is rounded to the time of that departure and the blocked agent tries again at the time at which it was blocked, the event changes nothing but counters and the scheduler. Then simulate need not get on although every service takes time: with three agents waiting for one departure the scheduler can pass over this departure for ever, and simulate(t=d) never ends.", "quantifier": "every network, every state with one agent in service at the queue; for the starvation: one network without cycles, all numbers of events", "why_tests_cant": "shows up only at clock values above 2**30, and only as a run that never ends", "anchors": ["queueing_tool/network/queue_network.py: _simulate_next_event", "queueing_tool/network/priority_queue.pyx: PriorityQueue.pop, push, heappop"]}
{"id": "C116", "title": "collecting data does not change the simulation", "statement": "Two programs that make the same calls in the same order except for start_collecting_data, stop_collecting_data and clear_data, on networks whose queues differ at most in data and collect_data, raise the same exception or end with networks that again differ at most in data and collect_data: agents, clocks, scheduler, counters and the numbers of random draws are the same. simulate(t=d) ends for the one exactly when it ends for the other. The same holds of single queues.", "quantifier": "every network with queues of any class, every pair of programs of initialize, simulate, clear, copy, set_transitions, blocking, set_num_servers and set_inactive calls with any switches in between, every random outcome", "why_tests_cant": "a relation between two runs, over all programs", "anchors": ["queueing_tool/network/queue_network.py: start_collecting_data, stop_collecting_data, clear_data, simulate, initialize", "queueing_tool/queues/queue_servers.py: QueueServer.next_event, LossQueue.next_event", "queueing_tool/queues/queue_extentions.py: ResourceQueue.next_event"]}
{"id": "C117", "title": "which rows are recorded when data collection is switched on and off", "statement": "If collection is not switched while agent x is in the queue and has rows in data, then data has for x exactly the rows which it would have with collection on throughout, of those visits that began while data were collected and have not been cleared since; hence arrival <= start <= departure in each. Otherwise rows become wrong: a row whose visit is under way when collection is stopped never gets its departure, and if collection is started during a visit its times are entered in the row of an earlier visit.", "quantifier": "every history of a QueueServer or LossQueue with forward arrival and service functions, any switches and clear_data calls, every agent", "why_tests_cant": "a relation between two runs over all histories; wrong rows look like rows", "anchors": ["queueing_tool/queues/queue_servers.py: QueueServer.next_event, _service_from_queue, clear, set_num_servers; LossQueue.next_event", "queueing_tool/network/queue_network.py: start_collecting_data, stop_collecting_data, clear_data"]}
{"id": "C118", "title": "Poisson arrivals at several queues are independent, and together a Poisson process", "statement": "Let each of several queues of a network have poisson_random_measure as arrival_f, each with its own measurable rate in [0, rate_max] of infinite integral, and let the network, started by initialize, have come past time u with these queues still active. Then the agents that come to these queues from outside until u form independent Poisson processes, whatever routes, services and other queues have to do with the draws; and all these agents together form a Poisson process whose rate is the sum of the rates.", "quantifier": "every network of QueueServers, LossQueues and NullQueues, every finite family of its queues, every rates, every lists of intervals and counts, every history without further calls of initialize and clear, over the law of all independent draws", "why_tests_cant": "a statement about joint probabilities over infinitely many draws, for all networks", "anchors": ["queueing_tool/network/queue_network.py: initialize, _simulate_next_event, simulate", "queueing_tool/queues/queue_servers.py: poisson_random_measure, QueueServer.set_active, _add_arrival, next_event"]}
{"id": "C119", "title": "one random number generator for all queues", "statement": "All queues and agents draw from one generator, and who draws next depends on the numbers drawn so far. Still, if the numbers of the generator are independent with some law, so are the numbers that different users get: any of them are independent with that law, and the sequences of users who draw again and again are independent. Hence the Poisson processes at several queues are independent also if all draws come from one generator.", "quantifier": "every law of the numbers, every measurable rule that says from the numbers so far who draws next, every set of users", "why_tests_cant": "a statement about probabilities for every interleaving that depends on the draws", "anchors": ["queueing_tool/queues/queue_servers.py: poisson_random_measure, QueueServer._add_arrival, next_event", "queueing_tool/queues/choice.pyx: _choice", "queueing_tool/network/queue_network.py: _simulate_next_event"]}
{"id": "C120", "title": "what animate does to the network", "statement": "animate() leaves the network, after m frames, as simulate(n=m) does. animate(t=d) performs one event in each frame as long as the clock is not past now + d, and nothing after that, so it goes through the state in which simulate(t=d) ends, and on from it if the clock is at now + d there. It never raises (queues of every class), and after each frame the colours are up to date as in C81; if only finitely many services, interarrival times and retries in a row fit before some time after now + d, it comes to rest.", "quantifier": "every network, every state after initialize, every number of frames, every d", "why_tests_cant": "relates two loops over all networks; an animation is not looked at by tests", "anchors": ["queueing_tool/network/queue_network.py: animate, simulate, _simulate_next_event(slow=True)"]}
{"id": "C121", "title": "a queue with infinitely many servers and Poisson arrivals", "statement": "Let a queue of a network have infinitely many servers, poisson_random_measure as arrival_f with a measurable rate in [0, rate_max] of infinite integral, and services that take independent times with one law; no queue leads to the vertex where it begins and no LossQueue or ResourceQueue begins at the vertex where it ends. After initialize, at time u between events, if the queue is still active, those agents have left whose time of arrival plus service time is at most u and those are in the queue who have come by u and not left. Hence num_system is Poisson with the integral over [0, u] of rate(x) P(service > u - x) as mean, the number of departures is Poisson with the integral of rate(x) P(service <= u - x) as mean, and they are independent; the numbers of departures in consecutive intervals are independent Poisson, and independent of num_system at the end.", "quantifier": "every such network with queues of any class, every rate, every law of the services, all times, every history without further calls of initialize, clear and set_num_servers on the queue, over the law of all independent draws", "why_tests_cant": "a statement about joint probabilities over infinitely many draws, for all networks and times", "anchors": ["queueing_tool/network/queue_network.py: initialize, _simulate_next_event, simulate", "queueing_tool/queues/queue_servers.py: poisson_random_measure, QueueServer.next_event, _add_arrival, set_active"]}
{"id": "C122", "title": "constructors of queues", "statement": "A queue class called with num_servers=v raises TypeError if v is neither an integer nor numpy.infty, ValueError if v is an integer below one, and otherwise makes an empty, inactive queue with v servers (none at a NullQueue) and the documented defaults. A new queue that is not a NullQueue has at least one server, and a new LossQueue has room for an agent.", "quantifier": "all five queue classes, all combinations of keyword arguments; for queues without servers or room every history of operations", "why_tests_cant": "ranges over all argument values and all later histories of the queue", "anchors": ["queueing_tool/queues/queue_servers.py: QueueServer.__init__, LossQueue.__init__, NullQueue.__init__", "queueing_tool/queues/queue_extentions.py: ResourceQueue.__init__, InfoQueue.__init__"]}
{"id": "C123", "title": "colours of queues", "statement": "The colours of a queue are those it was given, completed by the defaults of its class; making a queue changes no default and no colour that was given. In a network without colors in q_args a queue has the colours of its edge type.", "quantifier": "every sequence of constructions of queues of any classes with any dicts, shared or not, every assignment to a colour", "why_tests_cant": "depends on which dict objects are shared by queues, in any order of construction", "anchors": ["queueing_tool/queues/queue_servers.py: QueueServer.__init__, _default_colors", "queueing_tool/queues/queue_extentions.py: ResourceQueue._default_colors", "queueing_tool/network/queue_network.py: __init__, default_q_colors"]}
{"id": "C124", "title": "traffic in a network", "statement": "Over any number of events there are numbers F(j, k) of agents that went from queue j to queue k, along edges of the graph only, such that num_departures of j grows by the sum of F(j, k) over k, and the number of agents a QueueServer or LossQueue k got from other queues (arrivals, those turned away and those scheduled, without those made by its own arrival process) grows by the sum over j. (A ResourceQueue does not count who came to leave a resource.) So what leaves the queues that end at a vertex comes to the queues that begin there, if these are QueueServers or LossQueues. If these are QueueServers or NullQueues and nobody is greedy, then, with probability one: if departures at the vertex go on for ever, the share of queue e among them tends to the probability given for e; and if the queues that end at the vertex have departure rates and the number of agents in e grows slower than the clock, the departure rate of e is its rate of outside arrivals plus that probability times the sum of those rates (traffic equations).", "quantifier": "every network with queues of any class, every state reached, any number of events, every vertex and queue; the limits over the law of independent uniform draws, against any clock that goes to infinity", "why_tests_cant": "conservation laws over all runs, and limits over infinite runs for almost all sequences of draws", "anchors": ["queueing_tool/network/queue_network.py: simulate, _simulate_next_event", "queueing_tool/queues/queue_servers.py: QueueServer.next_event, _add_arrival; LossQueue.next_event", "queueing_tool/queues/agents.py: Agent.desired_destination", "queueing_tool/queues/choice.pyx: _choice"]}
{"id": "C125", "title": "the unit of time", "statement": "If time is measured in another unit, or on any other scale with the same order, zero and infinity, and arrival_f, service_f and the small delay of agents blocked after service (EPS * uniform(0.33, 0.66)) are translated, then any calls of a queue or a network have the same effect: the same exception, or the same state and data with all times translated; simulate(t=d) has to be given the translated d, for a change of the unit. With blocking='RS' nothing need be known of the delay. With blocking='BAS' it does matter: EPS is a constant, so the same network in another unit can perform other events.", "quantifier": "every network with queues of any class, every two scales, every list of calls, every random outcome", "why_tests_cant": "a relation between two runs on different inputs, for all programs and all scales", "anchors": ["queueing_tool/network/queue_network.py: simulate, _simulate_next_event (EPS), initialize, copy, clear", "queueing_tool/queues/queue_servers.py: QueueServer.next_event, set_active, delay_service, set_num_servers; LossQueue.next_event", "queueing_tool/queues/queue_extentions.py: ResourceQueue.next_event", "queueing_tool/network/priority_queue.pyx: push, pop"]}
{"id": "C126", "title": "uninitialised memory of the scheduler", "statement": "What stands in the memory that push allocates with resize_smart when the arrays of the scheduler are full never has an effect: two executions of the same calls with other contents of that memory raise the same exception or end with the same queues, clock, counters, random draws used and entries of the scheduler.", "quantifier": "every network with queues of any class, every list of calls, every contents of each newly allocated piece of memory", "why_tests_cant": "the contents of new memory cannot be chosen by a test", "anchors": ["queueing_tool/network/priority_queue.pyx: push, heappop, pop", "queueing_tool/network/queue_network.py: _simulate_next_event"]}
{"id": "C127", "title": "arguments of QueueNetwork", "statement": "QueueNetwork(g, q_classes, q_args) puts on each edge the queue that q_classes[et], or the default class, makes of q_args[et], or of no arguments, where et is the type of the edge. It changes nothing in the dicts given, it only adds items, so that a network made after others, from the same dicts or not, is the one that would have been made first; also when networks before raised exceptions. A network made from any graph whose edges have types 0, ..., 4 without further arguments is made without exception and meets all hypotheses of the network properties.", "quantifier": "every graph, every contents of the dicts, shared or not, every sequence of constructions, all queue classes", "why_tests_cant": "depends on dict objects shared by several networks, in any order of construction", "anchors": ["queueing_tool/network/queue_network.py: __init__", "queueing_tool/graph/graph_preparation.py: _prepare_graph, _set_queues"]}
{"id": "C128", "title": "the attribute blocking", "statement": "blocking='RS', in any mixture of upper and lower case, means repetitive service, every other string means blocking after service, and a value that is no string raises TypeError and changes nothing, not even the dicts passed to the constructor. blocking shows 'RS' or 'BAS', and assigning to it what it shows changes nothing.", "quantifier": "every string, every other value", "why_tests_cant": "ranges over all strings", "anchors": ["queueing_tool/network/queue_network.py: __init__, blocking"]}
{"id": "C129", "title": "properties of vertices and edges", "statement": "vp(v, name) and ep(e, name) are the value given last to that property of that vertex or edge, or None, whatever other calls were made in between; vertex_properties() and edge_properties() are the names given so far. The entries of the arrays vertex_color, vertex_fill_color and edge_color are these properties, or zero while they are None. Vertices and edges are those of the data and those added before freeze(); is_edge is True exactly of the edges; after freeze() add_edge raises NetworkXError and vertices, edges and their numbers stay. A call that raises changes nothing.", "quantifier": "every graph, every sequence of set_vp, set_ep, new_vertex_property, new_edge_property, set_pos, add_edge and freeze, every name", "why_tests_cant": "ranges over all histories of calls, with calls that raise among them", "anchors": ["queueing_tool/graph/graph_wrapper.py: vp, ep, set_vp, set_ep, vertex_properties, edge_properties, new_vertex_property, new_edge_property, set_pos, add_edge, is_edge, freeze"]}
{"id": "C130", "title": "excess over the servers", "statement": "num_servers is the value of the last valid set_num_servers. At any time there are at most num_servers agents in service, plus the sum of the amounts by which calls of set_num_servers lowered the number; a LossQueue holds at most num_servers + buffer agents, plus the same sum. Both bounds are attained.", "quantifier": "every QueueServer, InfoQueue, LossQueue with finitely many servers, every list of calls that sets no infinite number of servers", "why_tests_cant": "ranges over all interleavings of set_num_servers, events and other calls", "anchors": ["queueing_tool/queues/queue_servers.py: set_num_servers, next_event; LossQueue.next_event"]}
{"id": "C131", "title": "arrivals per activation", "statement": "A queue creates at most max(active_cap - 1, 0) agents since the last clear and one more for each call of set_active. The bound is attained, for a cap of zero as well.", "quantifier": "every QueueServer, InfoQueue, LossQueue, every finite active_cap, every list of calls", "why_tests_cant": "histories that deactivate and re-activate, with caps of any value", "anchors": ["queueing_tool/queues/queue_servers.py: _add_arrival, set_active, active_cap, clear"]}
{"id": "C132", "title": "the order in which agents leave", "statement": "With one server agents leave a queue in the order in which it admitted them: those that left, then the one in service, then those waiting are all agents admitted, in the order of admission, also if departures are postponed. With any number of servers agents leave in the order of admission if a service that starts later ends later and no departure is postponed. Agents with equal departure times leave in no particular order, so that agents overtake each other at queues with constant service times; agents with equal arrival times are admitted in no particular order.", "quantifier": "every QueueServer, InfoQueue, LossQueue, every history of calls (with one server: that keeps it)", "why_tests_cant": "ranges over all histories and all service times; which agents overtake depends on the layout of the heaps", "anchors": ["queueing_tool/queues/queue_servers.py: next_event, set_num_servers, delay_service, _service_from_queue"]}
{"id": "C133", "title": "a queue with one server in the long run", "statement": "Run by itself, a queue with one server serves the n-th agent W(n) after its arrival, W(0) = 0 and W(n+1) = max(0, W(n) + service(n) - time between arrivals(n+1)). If the times of arrival are unbounded nobody waits for ever. If the times between arrivals and the services are independent, each of one law, with means a > 0 and s, then with probability 1 W(n) / n tends to max(0, s - a): waiting times grow linearly if s > a, and otherwise more slowly than n; and if s < a infinitely many agents do not wait at all.", "quantifier": "every QueueServer with one server, no active_cap and no deactive_t, run by set_active and simulate; all laws of times between arrivals and of services with means", "why_tests_cant": "a limit over infinitely many agents, with probability 1", "anchors": ["queueing_tool/queues/queue_servers.py: next_event, _add_arrival, set_active"]}
{"id": "C134", "title": "throughput of a queue with one server", "statement": "Run by itself, a queue with one server lets agents leave in the order of arrival, each when its service, which starts as in C133, is over; everybody leaves if the times of arrival are unbounded. If the times between arrivals and the services are independent, each of one law, with means a > 0 and s, then with probability 1 the time at which the n-th agent leaves, divided by n, tends to max(a, s), and the share of the time until then for which the server is busy tends to s / max(a, s).", "quantifier": "every QueueServer with one server, no active_cap and no deactive_t, run by set_active and simulate; all laws of times between arrivals and of services with means", "why_tests_cant": "a limit over infinitely many agents, with probability 1", "anchors": ["queueing_tool/queues/queue_servers.py: next_event, _add_arrival, _service_from_queue"]}
{"id": "C135", "title": "queues in a line", "statement": "Let queues with one server each form a line in a network: agents are created at the first only, and from each queue they go to the next; no queue can turn them away. Then the r-th agent that comes to a queue of the line, and the r-th that leaves it, is the r-th that was created, and it leaves at D(i, r) = the end of a service that starts at max(D(i-1, r), D(i, r-1)). If the times between arrivals, and the services of each queue, are of one law and pairwise independent, then with probability 1 D(i, r) / r tends to the greatest of the means of the times between arrivals and of the services of the queues up to the i-th: the slowest queue sets the pace.", "quantifier": "every network with queues of any class that contains such a line of any length, without max_agents, every history of initialize (of queues that are not later ones of the line) and simulate; all laws with means", "why_tests_cant": "a formula for all histories, and a limit over infinitely many agents, with probability 1", "anchors": ["queueing_tool/network/queue_network.py: _simulate_next_event, initialize, simulate", "queueing_tool/queues/queue_servers.py: QueueServer.next_event, _add_arrival, _service_from_queue"]}
{"id": "C136", "title": "numbers of departures from queues in a line", "statement": "In a line of queues as in C135, at a time u between events with the first queue active, exactly those agents have come to a queue of the line, and left it, whose time to come and to leave by the formula of C135 is at most u; num_arrivals and num_departures are the numbers of these. Hence, with probability 1, if the times between arrivals have a positive mean, num_departures of the i-th queue divided by the time tends to 1 over the greatest of the means named in C135, uniformly in all histories.", "quantifier": "every network with queues of any class that contains such a line of any length, without max_agents, every history of initialize (of queues that are not later ones of the line) and simulate, every time between events; all laws with means", "why_tests_cant": "an equality for all histories and times, and a limit with probability 1", "anchors": ["queueing_tool/network/queue_network.py: _simulate_next_event, initialize, simulate", "queueing_tool/queues/queue_servers.py: QueueServer.next_event, _add_arrival, _service_from_queue"]}
{"id": "C137", "title": "changing a line of queues", "statement": "Take two lines of queues as in C135, in any two networks. If arrival_f and service_f of the first return no later times than those of the second at the same places, for calls of the same number with no later an argument, then the r-th agent comes to and leaves each queue of the first no later than that of the second. If service_f of each queue adds a constant time (or is any monotone function of the time alone, and these commute), the order of the queues does not matter: with the queues in another order the r-th agent leaves the last queue at the same time. If the services of a queue differ the order does matter.", "quantifier": "every two networks with queues of any class that contain such lines of any length, all pairs of histories, every agent", "why_tests_cant": "a relation between two systems, for all histories of both", "anchors": ["queueing_tool/network/queue_network.py: _simulate_next_event, initialize, simulate", "queueing_tool/queues/queue_servers.py: QueueServer.next_event, _add_arrival, _service_from_queue"]}
{"id": "C138", "title": "the law of the waiting time at a queue with one server", "statement": "Run by itself, a queue with one server whose times between arrivals and services are independent, each of one law, with means a and s: if s < a the waiting times settle. There is a probability law such that the chance that the n-th agent waits for x or less falls, as n grows, to the probability this law gives to x or less, for every x; it is the law of the largest of the sums of the first k services less the k times between arrivals after them, k = 0, 1, .... If s > a the chance that the n-th agent waits for x or less tends to 0, for every x.", "quantifier": "every QueueServer with one server, no active_cap and no deactive_t, run by set_active and simulate; all laws of times between arrivals and of services with means; every x", "why_tests_cant": "a limit of probabilities over infinitely many agents", "anchors": ["queueing_tool/queues/queue_servers.py: next_event, _add_arrival, set_active"]}
{"id": "C139", "title": "which law the waiting time settles to", "statement": "In the case s < a of C138 a probability law is the one the waiting times settle to just if it does not change from one agent to the next: if V has this law and service and time between arrivals are independent of it and of each other, max(0, V + service - time between arrivals) has the same law. So there is exactly one law that does not change.", "quantifier": "every QueueServer with one server, no active_cap and no deactive_t, run by set_active and simulate; all laws of times between arrivals and of services with means; every probability law", "why_tests_cant": "an equality of a limit of probabilities with the solution of an equation", "anchors": ["queueing_tool/queues/queue_servers.py: next_event, _add_arrival, set_active"]}
{"id": "C140", "title": "a queue with one server and exponential times", "statement": "Run by itself, a queue with one server, arrival_f t + exponential(1 / lam) and service_f t + exponential(1 / mu), 0 < lam < mu: the chance that the n-th agent waits longer than x tends to lam / mu * exp(-(mu - lam) x), and the chance that it is in the queue longer than x, waiting and service together, to exp(-(mu - lam) x). For the default functions, t + exponential(1.0) and t + exponential(0.9), these are 0.9 exp(-x / 9) and exp(-x / 9).", "quantifier": "every QueueServer with one server, no active_cap and no deactive_t, run by set_active and simulate; all rates lam < mu; every x >= 0", "why_tests_cant": "limits of probabilities over infinitely many agents", "anchors": ["queueing_tool/queues/queue_servers.py: QueueServer.__init__, next_event, _add_arrival, set_active"]}
{"id": "C141", "title": "mean waiting times at a queue with one server", "statement": "Run by itself, a queue with one server whose times between arrivals and services are independent, each of one law, with means a and s: the mean waiting time grows from agent to agent. If s < a it tends to the mean of the law of C138 (infinite or not); and if times between arrivals and services have variances no agent waits in the mean longer than (variance of times between arrivals + variance of services) / (2 (a - s)) (Kingman). For exponential times of rates lam < mu it tends to lam / (mu (mu - lam)).", "quantifier": "every QueueServer with one server, no active_cap and no deactive_t, run by set_active and simulate; all laws of times between arrivals and of services with means", "why_tests_cant": "an inequality for means over all draws, for every agent and all laws", "anchors": ["queueing_tool/queues/queue_servers.py: next_event, _add_arrival, set_active"]}
{"id": "C142", "title": "a queue with one server and Poisson arrivals", "statement": "Run by itself, a queue with one server and exponential times of rate lam between arrivals, services of any one law with mean s and lam s < 1, all independent: the chance that the n-th agent does not wait tends to 1 - lam s, and for every t > 0 the mean of exp(-t W), W its waiting time, tends to (1 - lam s) t / (t - lam (1 - B)), B the mean of exp(-t * service) (Pollaczek and Khinchine).", "quantifier": "every QueueServer with one server, no active_cap and no deactive_t, run by set_active and simulate; all rates lam, all laws of services with lam s < 1, every t > 0", "why_tests_cant": "limits of probabilities over infinitely many agents, for all laws of services", "anchors": ["queueing_tool/queues/queue_servers.py: next_event, _add_arrival, set_active"]}
{"id": "C143", "title": "the mean waiting time with Poisson arrivals", "statement": "In the case of C142, if the services have a second moment, the mean waiting time of the n-th agent tends to lam * (mean of service ** 2) / (2 (1 - lam s)).", "quantifier": "every QueueServer with one server, no active_cap and no deactive_t, run by set_active and simulate; all rates lam, all laws of services with lam s < 1 and a second moment", "why_tests_cant": "a limit of means over infinitely many agents, for all laws of services", "anchors": ["queueing_tool/queues/queue_servers.py: next_event, _add_arrival, set_active"]}
{"id": "C144", "title": "long waiting times at a queue with one server", "statement": "Run by itself, a queue with one server whose times between arrivals and services are independent, each of one law: if the mean of exp(theta * (service - time between arrivals)) is at most 1 for a theta > 0, every agent waits longer than x with probability exp(-theta x) or less, for every x, and in the mean for 1 / theta or less (Kingman). There is such a theta if services are shorter in the mean than times between arrivals and the mean of exp(r * service) is finite for some r > 0.", "quantifier": "every QueueServer with one server, no active_cap and no deactive_t, run by set_active and simulate; all laws of times between arrivals and of services with means; every theta, every agent, every x", "why_tests_cant": "an inequality for probabilities over all draws, for every agent and all laws", "anchors": ["queueing_tool/queues/queue_servers.py: next_event, _add_arrival, set_active"]}
{"id": "C145", "title": "a queue with several servers in the long run", "statement": "Run by themselves, a queue with m servers and a queue with one server that is m times as fast, with the same arrivals: the times at which the n-th agent starts service at the one and at the other differ by no more than the longest of the services before takes at the first. If the times between arrivals and the services are independent, each of one law, with means a > 0 and s, then with probability 1 nobody waits for ever, and the waiting time of the n-th agent at the m servers, divided by n, tends to max(0, s / m - a).", "quantifier": "every QueueServer with any finite number of servers, no active_cap and no deactive_t, run by set_active and simulate; all times between arrivals and services, all pairs of histories; all laws with means", "why_tests_cant": "a relation between two systems for all histories, and a limit over infinitely many agents", "anchors": ["queueing_tool/queues/queue_servers.py: next_event, _add_arrival, _service_from_queue, set_active"]}
{"id": "C146", "title": "numbers of agents at a queue with several servers", "statement": "Run by itself, a queue with m servers at a time u between events, once active: exactly those agents have come whose time to come is at most u; num_departures is the number of agents n with B(n) + service(n) <= u, where B(n) is the time at which the n-th agent starts service if each goes to the server that is free first; num_system is the difference. If the times of arrival are unbounded every time u comes. If the times between arrivals and the services are independent, each of one law, with means a > 0 and s, then with probability 1 num_departures / u tends to 1 / max(a, s / m) and num_system / u to 1 / a - 1 / max(a, s / m), uniformly in all histories.", "quantifier": "every QueueServer with finitely many servers, no active_cap and no deactive_t, run by set_active and simulate; every time between events; all laws of times between arrivals and of services with means", "why_tests_cant": "an equality for all histories and times, and a limit with probability 1", "anchors": ["queueing_tool/queues/queue_servers.py: next_event, _add_arrival, _service_from_queue, set_active"]}
{"id": "C147", "title": "how many agents an agent finds and leaves behind", "statement": "Run by itself, a queue with one server: after the call of next_event at which the n-th agent leaves, num_system is k or more exactly if the k-th agent after it comes no later than it leaves; before the call at which agent n + k comes, num_system is k or more exactly if it comes no later than the n-th leaves. If times between arrivals are exponential of rate lam and services of rate mu > lam, all independent, the chance that the n-th agent leaves k or more agents behind, and the chance that it finds k or more, tend to (lam / mu) ** k; for the default functions to 0.9 ** k.", "quantifier": "every QueueServer with one server, no active_cap and no deactive_t, run by set_active and simulate; all times between arrivals and services, with ties; every n and k; all rates lam < mu", "why_tests_cant": "an equivalence for all histories, and limits of probabilities over infinitely many agents", "anchors": ["queueing_tool/queues/queue_servers.py: QueueServer.__init__, next_event, _add_arrival, set_active"]}
{"id": "C148", "title": "how many agents are left behind with Poisson arrivals", "statement": "Run by itself, a queue with one server and exponential times of rate lam between arrivals, services of any one law with mean s and lam s < 1, all independent: the number of agents the n-th agent leaves behind when it leaves (num_system after that call of next_event) is k with the probability that is the mean of exp(-lam V) (lam V) ** k / k!, V the time from its arrival to its departure; and the mean of z ** (that number) tends, for 0 <= z < 1, to (1 - lam s) (1 - z) B / (B - z), B the mean of exp(-lam (1 - z) service) (Pollaczek and Khinchine).", "quantifier": "every QueueServer with one server, no active_cap and no deactive_t, run by set_active and simulate; all rates lam, all laws of services with lam s < 1; every n and k; every z", "why_tests_cant": "limits of probabilities over infinitely many agents, for all laws of services", "anchors": ["queueing_tool/queues/queue_servers.py: next_event, _add_arrival, set_active"]}
{"id": "C149", "title": "the mean number of agents left behind with Poisson arrivals", "statement": "Run by itself, a queue with one server and exponential times of rate lam between arrivals, services of any one law, all independent: the mean of the number of agents the n-th agent leaves behind when it leaves (num_system after that call of next_event) is lam times the mean of V, the time from its arrival to its departure; and the r-th factorial moment of that number is the mean of (lam V) ** r. These hold whether lam s < 1 or not (s the mean service) and also when the means are infinite. If lam s < 1 and services have a second moment, the mean number left behind tends to lam s + lam ** 2 * (mean of service ** 2) / (2 (1 - lam s)).", "quantifier": "every QueueServer with one server, no active_cap and no deactive_t, run by set_active and simulate; all rates lam, all laws of services; every n and r", "why_tests_cant": "an equality of means over all draws, for every agent, and a limit over infinitely many agents", "anchors": ["queueing_tool/queues/queue_servers.py: next_event, _add_arrival, set_active"]}
{"id": "C150", "title": "how the numbers of agents found and left behind settle", "statement": "Run by itself, a queue with one server whose times between arrivals and services are independent, each of one law, with means a and s: the chance that the n-th agent leaves k or more agents behind (num_system after the call of next_event at which it leaves) is the chance that agent n + k finds k or more (num_system before the call at which it comes). Both chances grow with n, and tend to the same limit p(k). If s < a, p(k) tends to 0 as k grows, so the number found and the number left behind settle to one law; if s > a, p(k) = 1 for every k.", "quantifier": "every QueueServer with one server, no active_cap and no deactive_t, run by set_active and simulate; all laws of times between arrivals and of services with means; every n and k", "why_tests_cant": "an equality and limits of probabilities over infinitely many agents, for all laws", "anchors": ["queueing_tool/queues/queue_servers.py: next_event, _add_arrival, set_active"]}
{"id": "C151", "title": "a queue with infinitely many servers", "statement": "Run by itself, a queue with num_servers infinity at a time u between events, once active: exactly those agents have come whose time to come is at most u; num_departures is the number of agents whose time to come plus service is at most u; num_system is the number of the others that have come. If the times of arrival are unbounded every time u comes. If times between arrivals are exponential of rate lam and services of any one law with a mean s, all independent, the mean of num_system at time u is lam times the integral, for x from 0 to u, of the chance that a service takes longer than x; as u grows it tends to lam s.", "quantifier": "every QueueServer with infinitely many servers, no active_cap and no deactive_t, run by set_active and simulate; every time between events; all rates lam and all laws of services with a mean", "why_tests_cant": "an equality for all histories and times, and means over all draws", "anchors": ["queueing_tool/queues/queue_servers.py: next_event, _add_arrival, set_active"]}
{"id": "C152", "title": "the law of the number of agents found with Poisson arrivals", "statement": "In the case of C148 there is one law pi such that the chance that the n-th agent finds exactly k agents (num_system before the call of next_event at which it comes) and the chance that it leaves exactly k behind (num_system after the call at which it leaves) both tend to pi(k). pi sums to 1, pi(0) = 1 - lam s, and the sum of z ** k * pi(k) is, for 0 <= z < 1, (1 - lam s) (1 - z) B / (B - z), B the mean of exp(-lam (1 - z) service).", "quantifier": "every QueueServer with one server, no active_cap and no deactive_t, run by set_active and simulate; all rates lam, all laws of services with lam s < 1; every k and z", "why_tests_cant": "limits of probabilities over infinitely many agents, for all laws of services", "anchors": ["queueing_tool/queues/queue_servers.py: next_event, _add_arrival, set_active"]}
{"id": "C153", "title": "services as long in the mean as times between arrivals", "statement": "Run by itself, a queue with one server whose times between arrivals and services are independent, each of one law, with equal means: unless a service is with probability 1 as long as a time between arrivals, the chance that the n-th agent waits for x or less tends to 0 for every x, and the chances that it finds k or more agents (num_system before the call of next_event at which it comes) and leaves k or more behind (num_system after the call at which it leaves) tend to 1 for every k. In the other case nobody ever waits, with probability 1.", "quantifier": "every QueueServer with one server, no active_cap and no deactive_t, run by set_active and simulate; all laws of times between arrivals and of services with equal means; every x and k", "why_tests_cant": "limits of probabilities over infinitely many agents, for all laws", "anchors": ["queueing_tool/queues/queue_servers.py: next_event, _add_arrival, set_active"]}
