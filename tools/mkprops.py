#!/usr/bin/env python3
"""Writes properties.jsonl (kept as a script so that entries stay well-formed)."""
import json, os
P = []
def p(title, statement, quantifier, why, anchors):
    P.append(dict(id="C%02d" % (len(P) + 1), title=title, statement=statement, quantifier=quantifier,
                  why_tests_cant=why, anchors=anchors))
QS = "queueing_tool/queues/queue_servers.py"; QE = "queueing_tool/queues/queue_extentions.py"
AG = "queueing_tool/queues/agents.py"; CH = "queueing_tool/queues/choice.pyx"
PQ = "queueing_tool/network/priority_queue.pyx"; QN = "queueing_tool/network/queue_network.py"
UF = "queueing_tool/union_find.py"; GW = "queueing_tool/graph/graph_wrapper.py"
GG = "queueing_tool/graph/graph_generation.py"; GP = "queueing_tool/graph/graph_preparation.py"
GF = "queueing_tool/graph/graph_functions.py"

# --- PriorityQueue -------------------------------------------------------------------------
p("PriorityQueue.pop returns the earliest live key",
  "After any history of construction, push and pop, pop() returns a pair (t, k) such that t is the time most recently pushed for node k, the pair had been pushed and not yet returned, and every other stored pair whose time is the most recent one pushed for its node has time >= t. Only superseded pairs are ever dropped silently.",
  "every list of initial keys, every interleaving of push(t, k) and pop() of any length, every linear order of times",
  "heap shape depends on the whole operation history; ties and superseded keys only arise on particular interleavings",
  [PQ + ": PriorityQueue.__init__, push, pop, heappop, _siftdown, _siftup, heapify"])
p("PriorityQueue never touches memory outside its arrays",
  "With bounds checks compiled out, no push or pop reads or writes outside the allocated arrays, provided the queue was constructed from at least one key, all node numbers are below n, and pop is only called on a non-empty queue. (Without the first condition it does: push on a queue constructed empty writes past a zero-length array.)",
  "every key list, every n, every legal interleaving of push/pop of any length, including every array doubling",
  "an out-of-bounds access in compiled code is silent; a test only sees the sizes it tries",
  [PQ + ": PriorityQueue.push, pop, heappop, __init__ (boundscheck(False))"])
p("PriorityQueue.pop answers None only when nothing live is stored",
  "pop() on a non-empty queue returns None exactly when every stored pair has been superseded by a later push for the same node, and then the queue is empty afterwards; otherwise it returns a pair.",
  "every reachable priority-queue state",
  "requires states in which only superseded entries remain, reached only by specific histories",
  [PQ + ": PriorityQueue.pop"])
p("heap operations preserve contents and put the minimum first",
  "Pushing adds exactly the pushed element, popping removes exactly one occurrence of an element that is minimal under the order, heapify only permutes; afterwards the first element is minimal. This holds for the scheduler's heap and for the arrival/departure heaps of each queue.",
  "every list, every element, every linear order of keys (ties included)",
  "sift loops are index arithmetic over every size; a wrong boundary shows only at particular sizes/orders",
  [PQ + ": _siftdown, _siftup, heapify, heappop", QS + ": heappush/heappop on _arrivals/_departures"])
# --- QueueServer ----------------------------------------------------------------------------
p("queue census", "At every moment num_system equals the number of agents waiting (number_queued()) plus the number in service, and num_arrivals[0] = num_departures + num_system.",
  "every QueueServer or LossQueue, every sequence of API calls, every arrival/service function outcome",
  "an induction over all histories", [QS + ": QueueServer.next_event, set_num_servers, delay_service, set_active, clear"])
p("total census reported to the network", "The number of agents a queue reports to its network (QueueNetwork.num_agents[k]) equals the agents scheduled to arrive plus those in the system, at every moment.",
  "every queue history, including agents handed over from other queues", "an induction over all histories",
  [QS + ": _num_total", QN + ": num_agents"])
p("no agent waits while a server is idle", "Whenever number_queued() > 0, at least num_servers agents are in service.",
  "every QueueServer/LossQueue history including changes of the number of servers", "depends on every order of arrivals, departures and server changes",
  [QS + ": QueueServer.next_event, set_num_servers, _service_from_queue"])
p("servers are never oversubscribed", "The number of agents in service never exceeds num_servers, except for agents whose service had already begun when the number of servers was lowered.",
  "every QueueServer history", "needs particular interleavings of set_num_servers and events",
  [QS + ": set_num_servers (agents_to_queue), next_event"])
p("first come first served", "Agents begin service in exactly the order in which they were admitted: the sequence of agents whose queue_action(queue, 1) was called, followed by those still in queue, is the sequence of agents whose queue_action(queue, 0) was called.",
  "every QueueServer/LossQueue history, every service-time outcome, any number of servers and server changes", "ordering over unbounded histories with adversarial service times",
  [QS + ": next_event, _service_from_queue, queue"])
p("every agent is served exactly once per visit", "Each admitted agent gets queue_action 0, then 1, then 2 exactly once per visit and in this order; departed agents plus agents in service are exactly the agents whose service started.",
  "every history", "multiset identity over unbounded histories", [QS + ": next_event"])
p("the clock of a queue never runs backwards", "If arrival_f(t) >= t and service_f(t) >= t for every call, current_time never decreases under simulate/next_event and current_time <= time always.",
  "every history, every outcome of the two random functions", "all interleavings of arrivals and departures",
  [QS + ": _current_t, _time, _update_time, _add_arrival"])
p("time is the time of the next event", "QueueServer.time is always the minimum over all scheduled arrivals and departures (infinity if there are none), and simulating one event sets current_time to exactly that value.",
  "every history", "the attribute is cached and updated in several places", [QS + ": _update_time, _add_arrival, next_event"])
p("next_event_description predicts the next event", "If next_event_description() is 2 the next event returns a departing agent and adds one to num_departures; if 1 no agent is returned and an arrival is processed; if 0 next_event changes nothing at all.",
  "every reachable queue", "ties between arrivals and departures and the sentinel at infinity", [QS + ": next_event_description, next_event"])
p("active_cap bounds the arrivals from outside", "A queue never creates more than active_cap agents of its own (num_arrivals[1] <= active_cap).",
  "every history", "histories that deactivate and re-activate", [QS + ": _add_arrival, set_active, active_cap"])
p("no outside arrival at or after deactive_t", "Every agent created by a queue arrives strictly before deactive_t.",
  "every history, every arrival function", "depends on arrival function outcomes", [QS + ": _add_arrival, deactive_t"])
p("agent ids are unique per queue", "All agents created by one queue since the last clear() have pairwise distinct agent_id, namely (edge index, 0), (edge index, 1), ...",
  "every history", "unbounded history", [QS + ": _add_arrival (AgentFactory)"])
p("simulate(n) is exactly n events", "simulate(n=k) performs exactly k events while events remain: num_arrivals[0] + num_departures (+ num_blocked for a LossQueue) grows by exactly k; with nothing scheduled it does nothing.",
  "every queue state, every k", "every k and state", [QS + ": simulate, next_event"])
p("simulate(t), simulate(nD), simulate(nA) stop exactly on time", "simulate(t=d) stops at the first event whose time is >= start + d (or when nothing is scheduled); simulate(nD=k) stops with exactly k more departures (or nothing scheduled); simulate(nA=k) with exactly k more created agents (or nothing scheduled).",
  "every queue state, every argument, every terminating run", "stopping conditions over unbounded runs", [QS + ": simulate"])
p("delay_service postpones only the next departure", "delay_service changes only the departure time of the agent that was to depart next (new service time or the given time); all counts, the line and all other agents are unchanged; with nobody in service it does nothing.",
  "every reachable queue, every t", "heap reshuffling on every state", [QS + ": delay_service"])
p("set_num_servers validates and starts the right number of services", "Non-integers raise TypeError, non-positive integers raise ValueError, in both cases nothing changes; otherwise num_servers becomes n and min(n - old, waiting) (at least 0) agents from the front of the line start service.",
  "every reachable queue and every n including infinity", "every n and queue length; the pair (infinity, infinity) is special", [QS + ": set_num_servers, _service_from_queue"])
p("clear resets a queue", "After clear() a QueueServer/LossQueue is indistinguishable from a freshly constructed one with the same parameters (counts, clock, line, data, activity); in particular simulating it again after set_active behaves as the first time.",
  "every history before clear", "hidden leftovers only show on later histories", [QS + ": clear, NullQueue.clear", QE + ": ResourceQueue.clear"])
p("a LossQueue never exceeds its capacity", "num_system <= num_servers + buffer always (number of servers not lowered); at_capacity() is True exactly when equality holds.",
  "every LossQueue history, every buffer", "all histories", [QS + ": LossQueue.next_event, at_capacity"])
p("an arrival is blocked exactly when the queue is full", "An arrival event at a LossQueue adds one to num_blocked and admits nobody if at_capacity(), and otherwise admits the agent and leaves num_blocked unchanged; every arrival attempt is either admitted or blocked, never both, and a blocked agent's blocked counter grows by one.",
  "every LossQueue history", "all histories", [QS + ": LossQueue.next_event", AG + ": add_loss"])
p("a blocked arrival keeps the outside stream alive", "When an outside arrival is blocked, the next outside arrival is still scheduled as long as the queue is active.",
  "every LossQueue and ResourceQueue history", "only on blocking states", [QS + ": LossQueue.next_event", QE + ": ResourceQueue.next_event"])
p("NullQueue absorbs every agent", "Whatever is sent to a NullQueue, it never has an event, never holds or queues an agent, is never at capacity, and contributes 0 to num_agents; if collecting data it records exactly one row [arrival time, 0, 0, 0, 0] per agent sent.",
  "every history", "all histories", [QS + ": NullQueue"])
p("recorded rows are consistent", "With data collection on, every row of a departed agent satisfies arrival <= service start <= departure, and every row's number-in-system column counts the arriving agent itself.",
  "every QueueServer history with collection on throughout", "all histories; rows are patched in place three times", [QS + ": next_event, _service_from_queue, data"])
p("one data row per arrival", "With collection on throughout, the number of rows recorded equals the number of arrivals (plus blocked arrivals for a LossQueue).",
  "every history", "all histories", [QS + ": next_event, LossQueue.next_event, data"])
p("fetch_data returns all rows sorted by arrival", "fetch_data() returns exactly the recorded rows, each once, with the edge index appended, sorted by arrival time.",
  "every data content", "all contents", [QS + ": fetch_data"])
p("set_inactive and set_active never double the outside stream", "At every moment (no ties with handed-over agents) a queue has at most one scheduled arrival of its own, however often set_active/set_inactive are called.",
  "every history of activation and events", "interleavings of activation with pending arrivals", [QS + ": set_active, set_inactive, _add_arrival, _next_ct"])
p("poisson_random_measure returns the first accepted point after t", "The value returned is t plus a non-empty sum of exponential draws, is the first candidate accepted by the thinning test, and is never before t.",
  "every rate function, every sequence of draws", "random draws", [QS + ": poisson_random_measure"])
# --- routing ---------------------------------------------------------------------------------
p("routing draws by inverse distribution", "For n out-edges with probabilities pr and a uniform draw u, the chosen index is the least k with u <= pr[0]+...+pr[k] (n-1 if rounding leaves none); it is always a valid index; in exact arithmetic index k is chosen exactly for u in an interval of length pr[k], and an out-edge of probability zero is never chosen for u > 0.",
  "every probability vector of any length >= 2, every u", "continuum of u and all vectors", [CH + ": _choice", AG + ": Agent.desired_destination"])
p("agents only move along out-edges", "The destination an Agent or GreedyAgent chooses is always the index of an edge leaving the vertex it is heading to; with a single out-edge it is that one.",
  "every network, every draw", "all networks and draws", [AG + ": desired_destination", QN + ": out_edges"])
p("GreedyAgent picks the first shortest line", "A GreedyAgent's destination has the minimal number of waiting agents among the out-edges and is the first such in the order of out_edges.",
  "every network state", "all vectors and ties", [CH + ": _argmin", AG + ": GreedyAgent.desired_destination"])
p("set_transitions validates", "A dict with an unknown vertex, a row that does not sum to 1 at a vertex with out-edges, or a negative entry raises ValueError; a matrix of the wrong shape, with a non-terminal row not summing to 1 or with a negative entry raises ValueError and then nothing is changed; other types raise TypeError.",
  "every argument", "all arguments", [QN + ": set_transitions"])
p("transitions returns what set_transitions stored", "After an accepted set_transitions(mat), transitions() gives, for every edge (u, v), mat[u][v] (0 if absent from a dict row), and entries of vertices not mentioned in a dict are unchanged; in both representations.",
  "every graph and matrix/dict", "all graphs", [QN + ": set_transitions, transitions"])
p("routing rows are probability vectors", "At every vertex with out-edges the routing probabilities are non-negative and sum to 1, initially (uniform) and after any accepted set_transitions.",
  "every graph and history of set_transitions", "all graphs and histories", [QN + ": __init__ (_route_probs), set_transitions"])
p("a rejected dict leaves the routing unchanged", "If set_transitions raises, the routing probabilities are exactly as before.",
  "every rejected argument", "needs a dict whose later key is bad", [QN + ": set_transitions"])
p("generate_transition_matrix is row-stochastic on the edges", "Every entry is non-negative, entries off the edge set are 0, and every row of a vertex with out-edges sums to 1.",
  "every graph, every sequence of draws", "all graphs and draws", [GG + ": generate_transition_matrix"])
# --- network -----------------------------------------------------------------------------------
p("events happen in time order", "Each simulated network event takes place at a queue whose next event time is minimal among all queues, at exactly that time.",
  "every network of QueueServer/LossQueue/NullQueue queues, every initialisation, every number of steps, every random outcome", "needs the scheduler invariant over all histories", [QN + ": _simulate_next_event, _fancy_heap"])
p("the network clock never runs backwards", "current_time never decreases during simulate (arrival_f and service_f returning times no earlier than their argument), and every scheduled event lies at or after current_time.",
  "as above", "all histories", [QN + ": _simulate_next_event, current_time"])
p("simulating never crashes", "For networks of QueueServer/LossQueue/NullQueue in which every queue whose target vertex has no out-edges is a NullQueue, with finite service times (or without self-loops), simulate never raises once initialised: the scheduler never hands out an empty answer and no lookup is out of range.",
  "as above", "all histories", [QN + ": _simulate_next_event", PQ + ": pop"])
p("num_agents is exact", "num_agents[k] equals at every moment the number of agents at or scheduled to arrive at queue k.",
  "as above", "all histories", [QN + ": num_agents, _simulate_next_event, initialize"])
p("a move conserves agents", "In a departure event that is not blocked exactly one agent leaves one queue and arrives at its destination at the same time; no other queue changes; the total number of agents changes only by outside arrivals created, agents absorbed by NullQueues and agents lost at full LossQueues.",
  "as above", "all histories", [QN + ": _simulate_next_event"])
p("max_agents bounds the population", "The total of num_agents never exceeds a non-negative max_agents as long as initialize is called only on a new or cleared network. A single operation never brings it above max_agents, except initialize of a running network, which adds at most max_agents.",
  "every network and history", "all histories", [QN + ": max_agents, initialize, _simulate_next_event"])
p("every simulated event is a real event", "As long as some queue has an event scheduled, simulate(n=1) performs one arrival, one departure or one blocking, and num_events counts exactly these.",
  "every network and history", "needs duplicate scheduler entries for one queue", [QN + ": num_events, _simulate_next_event", PQ + ": pop"])
p("QueueNetwork.time is the time of the next event", "time equals the minimum of the queues' next event times.",
  "every network and history", "needs superseded scheduler entries at the front", [QN + ": time"])
p("next_event_description of the network is right", "It names the kind and place of an event that is next in time, and says 'Nothing' exactly when no queue has an event scheduled.",
  "every network and history", "all histories", [QN + ": next_event_description"])
p("blocking after service", "Under 'BAS' an agent whose destination is a full queue stays in service where it is and its departure moves to just after the destination's next departure; nobody else moves, the destination's num_blocked and the agent's blocked counter grow by one. Under 'RS' it instead gets a new service time at its current queue.",
  "every network with queues of any class, every state with a blocked departure", "all states", [QN + ": _simulate_next_event, blocking"])
p("an agent inside the network is never lost", "An agent that leaves one queue for a LossQueue that is not at capacity is admitted there; agents are deleted only by a NullQueue or when arriving from outside.",
  "every network and history", "needs simultaneous events", [QN + ": _simulate_next_event", QS + ": LossQueue.next_event"])
p("initialize activates what was asked", "initialize raises ValueError/TypeError/QueueingToolError as documented, activates exactly the selected queues that are not of edge type 0 (at most max_agents), and afterwards every queue with a scheduled event is in the schedule.",
  "every network and argument", "all arguments", [QN + ": initialize"])
p("simulate requires initialize", "simulate raises QueueingToolError before initialize and after clear, and changes nothing then.",
  "every network", "all histories", [QN + ": simulate, clear, initialize"])
p("clear resets the network", "After clear() the clock, event count and num_agents are zero, nothing is scheduled, and every queue is as after its own clear().",
  "every history", "all histories", [QN + ": clear"])
p("copy simulates like the original", "Simulating a copy of a network with the same random outcomes produces the same queue states as simulating the original, and does not change the original.",
  "every network state and number of steps", "all states", [QN + ": copy"])
p("queue selection", "An edge index selects that queue; an edge or list of edges selects exactly the queues on these edges; edge types select exactly the queues whose edge has one of these types; nothing given selects all queues.",
  "every graph and argument", "all graphs", [QN + ": _get_queues"])
p("data views agree", "get_queue_data and get_agent_data contain the same rows: concatenating all agents' rows gives a permutation of the queue rows; each agent's rows are sorted by arrival; clear_data empties exactly the selected queues.",
  "every data content and selection", "all contents", [QN + ": get_queue_data, get_agent_data, clear_data, start_collecting_data, stop_collecting_data"])
p("current_time stays finite", "simulate never moves current_time past the time of the last event.",
  "every network and history", "needs exhaustion of all events", [QN + ": _simulate_next_event"])
# --- graphs --------------------------------------------------------------------------------------
p("edge_index numbers the edges 0..E-1", "edge_index is a bijection between the edges and 0..E-1 (increasing in the edge on construction) and stays one under add_edge, which never renumbers existing edges.",
  "every graph and sequence of add_edge", "all graphs", [GW + ": QueueNetworkDiGraph.__init__, add_edge"])
p("adjust=1 removes dead ends", "adjacency2graph with adjust=1 gives every vertex an out-edge: exactly the vertices without out-edges get a loop of edge type 0; all other edges and types are kept and missing types become 1.",
  "every adjacency", "all graphs", [GW + ": adjacency2graph, _adjacency_adjust"])
p("adjust=2 marks edges into dead ends", "With adjust=2 no edge is added; exactly the edges into vertices without out-edges get type 0; every other edge keeps its type (1 if none).",
  "every adjacency", "all graphs", [GW + ": _adjacency_adjust"])
p("matrix and dict adjacency agree", "An adjacency matrix yields exactly the edges of its non-zero entries; a dict of lists and the equivalent dict of dicts yield the same graph; graph2dict is inverse to it.",
  "every adjacency", "all graphs", [GW + ": _matrix2dict, _dict2dict, adjacency2graph", GF + ": graph2dict"])
p("each edge is drawn in its own queue's colour", "After construction and after reset_colors every edge has the colour of the queue on that edge.",
  "every graph", "depends on the order of vertices in the graph", [QN + ": reset_colors", GP + ": _prepare_graph"])
p("union-find answers connectivity", "find(a) == find(b) exactly when a and b have been connected by union calls; nClusters is the number of classes; size(s) the size of s's class; find terminates.",
  "every element set and every sequence of find/union/size", "unbounded histories; path compression mutates on reads", [UF + ": UnionFind"])
p("minimal_random_graph is connected and minimal", "For n >= 2 points the graph returned contains all n vertices, is connected, is symmetric, and there is a threshold such that all pairs strictly closer are edges, no pair farther is, and without its last pair it would not be connected.",
  "every n and point set", "all point sets", [GG + ": minimal_random_graph", UF + ": UnionFind"])
p("set_types_random assigns only given types", "Every non-loop edge gets one of the types in proportions, every loop one of the types in loop_proportions; proportions not summing to one raise ValueError.",
  "every graph and draw", "all graphs", [GG + ": set_types_random"])
p("set_types_rank types loops by rank", "After set_types_rank every vertex whose rank is at least the (ceil(V*pType2))-th largest has a loop of type 3, the chosen near vertices have loops of type 2, and every other edge has type 1.",
  "every graph and rank vector", "all graphs", [GG + ": set_types_rank"])
p("queue classes follow edge types", "Every edge carries one queue of the class registered for its type (defaults for missing types), stored at its edge index and told its own edge.",
  "every graph and q_classes", "all graphs", [GP + ": _set_queues", QN + ": __init__"])
p("colours stay in range", "Every colour component a queue reports lies in [0, 1] when its base colours do, and darkens monotonically with the number of agents.",
  "every queue state", "all states", [QS + ": _current_color", QE + ": ResourceQueue._current_color"])
# --- extensions ----------------------------------------------------------------------------------
p("a ResourceAgent takes one server per visit", "A visit of a ResourceAgent without a resource lowers num_servers of the ResourceQueue by exactly one (when it departs); arriving with a resource raises it by exactly one and deletes the agent; so servers plus resources carried are conserved.",
  "every ResourceQueue history", "all histories", [QE + ": ResourceAgent.queue_action, ResourceQueue.next_event"])
p("over_max counts overflows", "over_max counts exactly the times the number of servers was set above max_servers, and num_servers of a ResourceQueue never becomes negative through its agents.",
  "every ResourceQueue history", "all histories", [QE + ": ResourceQueue.set_num_servers, ResourceAgent.queue_action"])
p("deactive_t works on an InfoQueue", "An InfoQueue stops accepting outside arrivals at deactive_t like every other queue.",
  "every InfoQueue history", "needs an arrival past deactive_t", [QE + ": InfoQueue._add_arrival"])
p("network information only gets newer", "The time stamps an InfoQueue or InfoAgent holds about other queues never decrease while information is exchanged, and after an arrival the queue's stamps are at least as new as the agent's.",
  "every exchange history", "all histories", [QE + ": InfoQueue.extract_information, InfoAgent.queue_action"])
# --- added while the model grew ----------------------------------------------------------------
p("agent ids are unique in the network", "At every moment no two agents anywhere in a network have the same agent_id; an id (k, i) belongs to the i-th agent created at queue k, and while the network is simulated ids of agents that left are not used again.",
  "every network with queues of any class, every history (construction, initialize, simulate, copy, data and transition changes, clear), every random outcome", "an induction over all histories and all queues at once",
  [QS + ": QueueServer._add_arrival (oArrivals)", QN + ": _simulate_next_event, initialize"])
p("networks made from graphs are well formed", "A QueueNetwork made with adjust_graph=True from any graph with vertices 0..V-1, classes of any kind (NullQueue for type 0) and arrival/service functions that do not go back in time satisfies all structural hypotheses of the network properties: queue k is on edge number k, the out_edges list of each vertex holds exactly the numbers of its out-edges by increasing target (in_edges: in-edges by increasing source), and every edge that does not end in a NullQueue leads to a vertex with an out-edge.",
  "every graph, class and argument dict", "all graphs; connects the graph layer to the simulation layer", [QN + ": __init__", "queueing_tool/graph/graph_preparation.py: _prepare_graph, _set_queues"])
p("agents follow the edges of the network", "Whenever an agent leaves a queue for another, the new edge is one of the out-edges of the vertex it has reached, and it is the one the agent's rule selects: the first shortest line for a GreedyAgent, inverse transform sampling of the row of the vertex otherwise. So in a network made from a graph the edges an agent visits form a directed path of that graph.",
  "every network with queues of any class, every history, every random outcome", "an induction over histories that ties routing, scheduling and graph together", [QN + ": _simulate_next_event", "queueing_tool/queues/agents.py: desired_destination"])
p("a ResourceQueue keeps its books", "In every history of a ResourceQueue num_system counts the agents waiting and in service, _num_total those and the scheduled ones, every agent admitted has departed, waits or is in service, and next_event never raises.",
  "every ResourceQueue history", "all histories", [QE + ": ResourceQueue.next_event", QS + ": QueueServer.next_event"])
p("generate_random_graph", "For n >= 2 and accepted proportions generate_random_graph returns a connected graph on the vertices 0..n-1 whose other edges are those of minimal_random_graph, with a loop at v exactly when the draw for v is below prob_loop, and every edge has one of the types given for its kind, of positive proportion; it raises exactly if the proportions are not accepted.",
  "every n, point set, draw and proportions", "all graphs and draws", [GG + ": generate_random_graph"])
p("generate_pagerank_graph", "For n >= 2 and 1 <= ceil(n*pType2) <= n generate_pagerank_graph succeeds and returns a connected graph on 0..n-1: the minimal graph, a loop of type 3 at the vertices first by page rank, a loop of type 2 at the chosen near vertices, all else of type 1.",
  "every n, point set and rank vector", "all graphs", [GG + ": generate_pagerank_graph"])
p("queues in a network obey the laws of queues", "Every QueueServer, LossQueue and ResourceQueue of a network that was constructed, initialized, simulated, stopped, cleared or changed in any way has gone through a history of calls of its own methods, with agents handed over no earlier than its clock; so census, first-come-first-served service, work conservation, and the limits on servers and room hold for its QueueServers and LossQueues at all times.",
  "every network with queues of any class, every history, every queue", "a refinement between two transition systems", [QN + ": _simulate_next_event, initialize, clear", QS + ": QueueServer, LossQueue"])
p("set_num_servers on a running network", "After set_num_servers on a queue of a network that is being simulated the events are still performed in the order of their times and the clock does not run backwards.",
  "every network state and number", "needs waiting agents at a queue whose servers are raised between two events", [QS + ": QueueServer.set_num_servers, _service_from_queue", QN + ": _simulate_next_event"])
p("_update_all_colors brings a drawing up to date", "After _update_all_colors every edge shows the present colour of its queue, every vertex that has an edge shows the rim colour of its loop (of the network, without a loop) and the fill colour of its loop (of the load of the queues leading to it, without a loop or with one of type 0); nothing else changes and nothing raises.",
  "every network, state and earlier colours", "a loop over the edges with flags per vertex: the outcome depends on the order of all edges", [QN + ": _update_all_colors, _update_vertex_color, show_active, show_type"])
p("an animation shows the simulation", "The events that animate draws change the network exactly as those of simulate do, drawing never raises, and after every event the colours of all edges and vertices are the present ones.",
  "every network state, any number of events, every random outcome", "an invariant over all event sequences that relates incremental repainting to the state", [QN + ": _simulate_next_event (slow=True), _update_graph_colors, _update_vertex_color, animate"])
p("Little's law", "With data collected, the integral over time of the number in the system (waiting, in service) along a history equals the sum over the recorded rows of the time in the system (waiting, in service), plus the time those still here have been here; so when all have left the time average of num_system is the rate of departures times the mean recorded time in the system.",
  "every QueueServer/LossQueue history, every arrival and service function, every measure of time", "an identity between a time integral over an unbounded history and the data", [QS + ": QueueServer.next_event, set_num_servers, delay_service, fetch_data; LossQueue.next_event"])
p("waiting times obey the recursion of a first-come-first-served queue", "With n servers the i-th admitted agent starts at the first time, not before its arrival, at which fewer than n of the services of the agents admitted before it are going on, and leaves when service_f of that start says; for one server that is Lindley's recursion, with infinitely many servers everybody starts on arrival.",
  "every QueueServer/LossQueue history without changes of servers or delays, every arrival and service function", "a refinement of an event-driven program to a recursion, over unbounded histories", [QS + ": QueueServer.next_event, _service_from_queue; LossQueue.next_event"])
p("faster queues are faster", "If one queue has at least as many servers as another, its arrivals are admitted no later and its services take no longer, then each service starts and ends no later in it.",
  "every two QueueServer/LossQueue histories", "compares two unbounded executions", [QS + ": QueueServer.next_event, _service_from_queue; LossQueue.next_event"])
p("the data of an agent are one journey", "With data collected throughout, the rows that all queues of a network have recorded for an agent are, in one order, the visits of one journey: it starts at the queue that created the agent, each visit but the last has arrival <= start <= departure, the next begins when it ends and at an edge out of the vertex it led to; an agent waiting or in service is on its last visit, an agent that is scheduled has finished its last one, an agent that is gone was last recorded at a NullQueue, turned away by a LossQueue or ResourceQueue, or recorded bringing a resource back (arrival = start = departure) at a ResourceQueue. So the recorded times in the system add up to the time from first arrival to last departure.",
  "every network history without clear and changes of collection, every agent, every random outcome", "an invariant over all histories that ties the data of all queues together", [QN + ": _simulate_next_event, initialize, get_agent_data", QS + ": QueueServer.next_event, NullQueue.next_event"])
p("Little's law in a network", "With data collected, the integral over the clock of the network of the number in the system (waiting, in service) at a queue equals the total of the times recorded in its rows plus the time those still there have been there; summed over the queues, when all have left, the integral of the number in the network is the sum of all recorded times in the system.",
  "every network history without clear, changes of collection and of servers; every QueueServer and LossQueue, beside queues of any class, every random outcome, every measure of time", "an identity between an integral along an unbounded history of the network and the data of its queues", [QN + ": _simulate_next_event, simulate", QS + ": QueueServer.next_event, LossQueue.next_event"])
p("networks without cycles run empty", "If the QueueServers and LossQueues of a network can be ranked so that agents only move to queues of lower rank, and every active queue has a finite active_cap, then after finitely many events nobody is in the network and no event is scheduled; blocked agents, who keep trying, do get on in the end.",
  "every such network, every state reached, both rules of blocking, every random outcome", "termination of an event loop in which events may create agents and blocked agents repeat their departures", [QN + ": _simulate_next_event, simulate", QS + ": QueueServer.next_event, delay_service, LossQueue.at_capacity"])
p("simulate(t=d) ends", "If services, interarrival times and the delays of retries are bounded below by a positive number (in general: if only finitely many of them in a row fit before any time), then simulate(t=d) ends in every network, also in those with cycles and with queues that block each other for ever, and the clock has then moved on by d.",
  "every network and state reached, both rules of blocking, every random outcome", "termination of a while loop whose number of iterations has no a-priori bound", [QN + ": simulate, _simulate_next_event", QS + ": QueueServer.next_event, delay_service"])
p("a drawing shows the graph", "In the arrays made by lines_scatter_args, point v is vertex v, line i is edge number i and joins the points of its ends, there are no other points or lines, and each line and each point has the colour its edge or vertex was given last. Drawing works unless positions are passed and one is missing.",
  "every graph, every sequence of set_pos, set_vp, set_ep, new_edge_property, new_vertex_property and add_edge, every order of nodes and edges", "depends on the order in which nodes and edges were inserted and on all earlier calls", [GW + ": set_pos, set_vp, set_ep, new_vertex_property, new_edge_property, lines_scatter_args"])
p("vertices are drawn at their positions", "Vertex v is drawn at the position that was passed for v, or at its property pos.",
  "every graph, every dict of positions", "wrong only for some orders of insertion of the nodes, and the picture still looks like a graph", [GW + ": __init__, set_pos, lines_scatter_args", GG + ": minimal_random_graph"])
p("get_edge_type and out_neighbours", "get_edge_type(t) returns exactly the edges of type t, each once; set_ep(e, 'edge_type', t) moves e to type t and nothing else; out_neighbours(v) are the ends of the edges from v, each once.",
  "every graph made by the constructor, add_edge, set_ep and new_edge_property", "ranges over all graphs and histories of calls", [GW + ": get_edge_type, out_neighbours, set_ep"])
p("generated networks run", "A network made from generate_pagerank_graph(n) or generate_random_graph(n), n >= 2, has the edges and types of the graph, can be initialised with any positive number of active queues and simulated for any number of events; nothing raises.",
  "every number of vertices, all random points, ranks, types, routing and times", "composes generation, preparation, construction, initialisation and simulation over all random outcomes", [GG + ": generate_random_graph, generate_pagerank_graph", GP + ": _prepare_graph", QN + ": __init__, initialize, simulate"])
p("edge lengths are distances on the earth", "add_edge_lengths gives every edge a length, the distance on the earth of the positions of its ends, rounded; the distance is symmetric, zero only between equal points and satisfies the triangle inequality.",
  "every graph, all real coordinates", "an identity of real trigonometric functions for all points", [GF + ": _calculate_distance", GP + ": add_edge_lengths"])
p("show_type and show_active show types and active queues", "show_type(t) draws the graph with exactly the lines of the edges of type t dark and exactly the vertices with a loop of type t highlighted; show_active() with exactly the lines of active queues dark and exactly the vertices coloured that an edge with an active queue leads to. The graph does not change.",
  "every graph with arrays made by any sequence of calls, every type, every set of active queues", "ranges over all graphs, numberings and earlier colours", [QN + ": show_type, show_active, draw", GW + ": set_vp, set_ep, lines_scatter_args"])
p("poisson_random_measure gives a Poisson process", "If rate is measurable with values in [0, rate_max], the times returned by repeated calls t = poisson_random_measure(t, rate, rate_max) form a Poisson process: the numbers of arrivals in consecutive intervals are independent and Poisson distributed with the integrals of rate as means; the next arrival after t comes by s with probability 1 - exp(-integral); the loop ends with probability one exactly if the integral of the rate is infinite.",
  "every measurable rate function, every rate_max, every list of intervals and counts, over the law of all independent exponential and uniform draws", "a statement about probabilities over infinitely many random draws for all rate functions; samples can only make it plausible", [QS + ": poisson_random_measure"])
p("agents are sent along the out-edges with the given probabilities, independently of the past", "If uniform() gives independent uniform draws then, whatever has happened so far and whatever the arrival and service times are, an agent (not greedy) about to leave a queue that ends at vertex v is sent to an out-edge e of v with the probability given for e. So the chance that an agent is sent along a given journey is the product of the probabilities along it, if it gets to leave each queue of it, and never more.",
  "every network with queues of any class, every state reached, every number of events, every event of the past, every agent and journey", "a statement about conditional probabilities over all infinite sequences of draws and all pasts", [QN + ": _simulate_next_event", AG + ": Agent.desired_destination", CH + ": _choice"])
p("agents that are held back", "An agent that is held back because the LossQueue or ResourceQueue it wants to enter is full draws a new destination at its next attempt, with the same probabilities as before, under both blocking policies; the docstring says that it waits for that queue. With only one out-edge it tries the same queue again.",
  "every network, every journey; both policies", "depends on later random draws and on the states of two queues", [QN + ": QueueNetwork (blocking), _simulate_next_event", AG + ": Agent.desired_destination"])
p("networks with ResourceQueues perform events in order", "In a network whose queues are of any class, ResourceQueues and ResourceAgents included, an event that changes a queue is an arrival, a move or a blocking of one agent, at the earliest next event time of all queues; no agent has an earlier event ahead. The clock never runs back and nothing is scheduled before it.",
  "every network of QueueServers, LossQueues, NullQueues and ResourceQueues, every history (set_num_servers only where it starts no service, initialize of a running network only where it schedules nothing before the clock), every random outcome", "an invariant over all event sequences; ResourceQueues change their servers and delete agents in the middle of events", [QN + ": _simulate_next_event, simulate", QE + ": ResourceQueue.next_event"])
p("networks with ResourceQueues do not crash", "If no queue is an out-edge of its own target, simulate never raises in an initialised network with queues of any class, and num_agents is exact. With such loops the only possible error is a TypeError from an empty answer of the scheduler, and a ResourceQueue on a loop can cause it though all times are finite.",
  "every such network, every history, every random outcome", "all histories; the crash needs a deposit on a loop followed by a second visit", [QN + ": _simulate_next_event, simulate", QE + ": ResourceQueue.next_event", "queueing_tool/network/priority_queue.pyx: pop"])
p("agents are conserved in networks with ResourceQueues", "In each event at most one agent comes from outside, with the next id of its queue, and at most one is gone: to a NullQueue, turned away by a LossQueue or ResourceQueue, or after leaving its resource at a ResourceQueue, which then has one server more. Nobody else appears, disappears or is duplicated, and there are never more than max_agents agents.",
  "every network with queues of any class, every history, every random outcome", "all histories", [QN + ": _simulate_next_event, initialize", QE + ": ResourceQueue.next_event"])
p("resources are never created in a network", "The servers of all ResourceQueues plus the resources carried by agents anywhere in the network never become more while the network is simulated, if agents come into the network without resources.",
  "every network with ResourceQueues of finitely many servers, every state reached, any number of events", "a sum over all queues and agents along all histories", [QE + ": ResourceAgent.queue_action, ResourceQueue.next_event", QN + ": _simulate_next_event"])
p("the outside stream of a ResourceQueue", "An arrival at a ResourceQueue that brings a resource, or a ResourceAgent that finds no idle server, ends the outside stream of the queue even if the queue is active; every other arrival keeps it, drawing the next arrival when the last one drawn is due. A stream that has ended stays dead, whatever events happen and however often set_active is called, until an agent comes from elsewhere or the queue is made inactive.",
  "every history of a ResourceQueue, every arrival and service function", "depends on the kind of the arriving agent and on the servers at that time", [QE + ": ResourceQueue.next_event", QS + ": QueueServer.set_active, _add_arrival"])
p("agents that are held back for ever", "A full LossQueue or ResourceQueue holds back every agent that wants to enter from another queue, also one that would only leave a resource there. With blocking='BAS', if nobody is in service in the full queue, the agent's departure is set to infinity, and an agent whose departure is set to infinity stays where it is for ever. So agents can be locked out by the ResourceQueue they bring resources back to.",
  "every network with queues of any class, every state reached, any number of events", "the deadlock needs all resources to be out at the moment one is brought back", [QN + ": _simulate_next_event (BAS)", "queueing_tool/queues/queue_servers.py: LossQueue.at_capacity, QueueServer.delay_service", QE + ": ResourceQueue"])
p("the graph of a copied network", "The graph of QueueNetwork.copy() has the vertices, edges and properties of the original but an empty edge_index: get_agent_data, get_queue_data, initialize, clear_data and start/stop_collecting_data select queues by number or select all queues as before, but raise KeyError if an edge is named or if an edge type is asked for that some edge has; is_edge is False of every edge; an edge added to it gets number 0 and so names the first queue; no edge can be coloured and a copy with an edge cannot be drawn, whatever positions are passed, nor shown by show_active or show_type.",
  "every graph, every selection, every edge added", "quantifies over all graphs; shows only when a copy is used with edges", [QN + ": copy, _get_queues, show_active, show_type, draw", GW + ": QueueNetworkDiGraph.__init__, is_edge, add_edge, set_ep, lines_scatter_args"])
p("UnionFind.find takes few steps", "In a UnionFind made by any sequence of union and find, find(s) reaches the leader of the set of s in k steps where 2**k is at most the size of the set; then every element it passed is one step from the leader and no other element's leader has changed.",
  "every sequence of operations, every element", "a bound over all histories", [UF + ": UnionFind.find, union"])
p("what a ResourceQueue records", "Every arrival at a ResourceQueue that collects data adds exactly one row to the arriving agent's data: for an agent that brings a resource, arrival, service start and departure are the time of arrival; for one that is turned away start and departure are 0; for one that is admitted the row counts it among those in the system, has the start of service if it is served at once, and counts it among those waiting if there were fewer servers than agents before it acted on the queue. A departure completes the last row of the agent and enters the service start of the agent taken into service. Nothing else is recorded.",
  "every history of a ResourceQueue, every arrival and departure", "depends on the kind of the agent, its resource, and the changing number of servers", [QE + ": ResourceQueue.next_event", "queueing_tool/queues/queue_servers.py: QueueServer.next_event, LossQueue.next_event"])
p("simulate of a queue ends", "simulate(nA=m) of a queue always ends, after at most twice the arrivals scheduled and m, plus the agents waiting and in service, events. simulate(t=d) ends if only finitely many interarrival times and services in a row fit before any time, and simulate(nD=m) does if moreover the queue has a server and services are finite; both are true if interarrival times and services are bounded below by a positive number and finite. Otherwise they may never end: simulate(t=1) with interarrival times zero, simulate(nD=1) with infinite services.",
  "every QueueServer or LossQueue, every state reached, every arrival and service function", "termination of while loops whose number of iterations has no a-priori bound, and non-termination", [QS + ": QueueServer.simulate, next_event; LossQueue.next_event"])
p("random types are independent with the given proportions", "set_types_random gives the edges independent types: the chance that any chosen edges get given types is the product of the proportions of these types, those for loops if the edge is a loop. generate_random_graph gives each vertex a loop with probability prob_loop, independently of the others, of the types and of the places of the vertices, if it is called without a seed. With a seed the types of edges are functions of the places. The places are independent and uniform in a square, and vertices closer than some distance r are joined, none farther apart are, and r is the smallest distance for which the graph is connected.",
  "every graph, every proportions with accepted sums, every set of edges and types, every set of loops, over the law of independent uniform draws", "a statement about probabilities over all graphs and draws", [GG + ": set_types_random, generate_random_graph, minimal_random_graph"])
p("initialize of a running network", "initialize may be called again while a network is running: it keeps the clock, schedules nothing before it, and the clock does not run backwards afterwards.",
  "every network, every state reached, every selection of queues", "depends on the private clock of each queue selected", [QN + ": initialize", QS + ": QueueServer.set_active, _add_arrival"])
p("a queue that stops being active stays so", "simulate never makes a queue active again, and nobody comes from outside to a queue that is not active; so when no queue is active agents only leave. A queue becomes inactive in an event only if max_agents is reached, at its deactive_t or at its active_cap. When max_agents is reached nobody comes from outside, and each queue at which somebody arrives becomes inactive; hence a network that has once been full can stay empty for ever.",
  "every network with queues of any class, every state reached, any number of events", "a property of all later events of all networks; the population may be far below max_agents when it shows", [QN + ": _simulate_next_event, initialize (max_agents)", QS + ": QueueServer._add_arrival, next_event"])
p("in the long run agents are sent along the out-edges in the given proportions", "Of the first K agents (not greedy) that leave queues ending at vertex v, the share that is sent to out-edge e differs from the probability given for e by eps or more with a chance of at most 2 exp(-2 K eps^2). If agents leave such queues for ever, the share of e tends to that probability, with probability one.",
  "every network with queues of any class, every state reached, every vertex and out-edge, every K and eps, over the law of independent uniform draws", "a statement about limits over infinite runs, for almost all sequences of draws", [QN + ": _simulate_next_event, simulate", AG + ": Agent.desired_destination", CH + ": _choice"])
p("agents come from outside as arrival_f says, with poisson_random_measure as a Poisson process", "The agents that come from outside to a queue made active by initialize are numbered 0, 1, ...; the first comes at the time arrival_f returns for time 0, each other at the time it returns for the time of the one before, whatever else arrives at the queue and happens in the network, as long as the queue is active. If arrival_f is poisson_random_measure with a measurable rate in [0, rate_max] of infinite integral, and the network has come past time u with the queue still active, their numbers in consecutive intervals until u are independent and Poisson distributed with the integrals of the rate as means. simulate keeps a queue active if max_agents, active_cap and deactive_t are infinite and arrival times finite.",
  "every QueueServer and LossQueue of a network with queues of any class, every history without further calls of initialize and clear, every random outcome; for the law: every rate function, every list of intervals and counts, over the law of all independent exponential and uniform draws", "ties a stream of random times to all histories of a network; a statement about probabilities over infinitely many draws", [QN + ": initialize, _simulate_next_event, simulate", QS + ": poisson_random_measure, QueueServer.set_active, _add_arrival, next_event"])
p("what InfoAgent.stats contains", "At an InfoQueue that collects data, each visit of an InfoAgent that is not turned away adds minus the time of arrival to stats[n, 0], and then, once when its service starts and once more when it departs, the time it waited; stats[n, 1] counts those of these numbers that are positive, so 2 for one visit with waiting; stats[n, 2] counts the visits turned away. With exact arithmetic stats[n, 0] is the sum of 2 * (time waited) - (time of arrival) over the completed visits. At an InfoQueue that does not collect data only stats[n, 2] ever changes.",
  "every InfoQueue with forward arrival and service functions, every history without clear and without switching data collection, every agent, every arithmetic of the array", "a relation between two records kept by different objects over all histories", [QE + ": InfoAgent.queue_action, add_loss", QS + ": QueueServer.next_event, _service_from_queue", QS + ": LossQueue.next_event"])
p("simulate(t=d) ends in networks with ResourceQueues", "If only finitely many services, interarrival times and retries of blocked agents in a row fit before any time, simulate(t=d) of a network with queues of any class ends, also if agents are locked out for ever. If no queue leads to itself the clock has then got to the end of the period; otherwise simulate may have raised TypeError instead.",
  "every network with queues of any class, every state reached, every d", "termination of a while loop whose number of iterations has no a-priori bound", [QN + ": simulate, _simulate_next_event", QE + ": ResourceQueue.next_event"])
p("blocked agents whose delay is rounded away", "With blocking='BAS' a blocked agent tries again EPS * uniform(0.33, 0.66) after the next departure from the queue it waits for. If this sum is rounded to the time of that departure and the blocked agent tries again at the time at which it was blocked, the event changes nothing but counters and the scheduler. Then simulate need not get on although every service takes time: with three agents waiting for one departure the scheduler can pass over this departure for ever, and simulate(t=d) never ends.",
  "every network, every state with one agent in service at the queue; for the starvation: one network without cycles, all numbers of events", "shows up only at clock values above 2**30, and only as a run that never ends", [QN + ": _simulate_next_event", PQ + ": PriorityQueue.pop, push, heappop"])
p("collecting data does not change the simulation", "Two programs that make the same calls in the same order except for start_collecting_data, stop_collecting_data and clear_data, on networks whose queues differ at most in data and collect_data, raise the same exception or end with networks that again differ at most in data and collect_data: agents, clocks, scheduler, counters and the numbers of random draws are the same. simulate(t=d) ends for the one exactly when it ends for the other. The same holds of single queues.",
  "every network with queues of any class, every pair of programs of initialize, simulate, clear, copy, set_transitions, blocking, set_num_servers and set_inactive calls with any switches in between, every random outcome", "a relation between two runs, over all programs", [QN + ": start_collecting_data, stop_collecting_data, clear_data, simulate, initialize", QS + ": QueueServer.next_event, LossQueue.next_event", QE + ": ResourceQueue.next_event"])
p("which rows are recorded when data collection is switched on and off", "If collection is not switched while agent x is in the queue and has rows in data, then data has for x exactly the rows which it would have with collection on throughout, of those visits that began while data were collected and have not been cleared since; hence arrival <= start <= departure in each. Otherwise rows become wrong: a row whose visit is under way when collection is stopped never gets its departure, and if collection is started during a visit its times are entered in the row of an earlier visit.",
  "every history of a QueueServer or LossQueue with forward arrival and service functions, any switches and clear_data calls, every agent", "a relation between two runs over all histories; wrong rows look like rows", [QS + ": QueueServer.next_event, _service_from_queue, clear, set_num_servers; LossQueue.next_event", QN + ": start_collecting_data, stop_collecting_data, clear_data"])
p("Poisson arrivals at several queues are independent, and together a Poisson process", "Let each of several queues of a network have poisson_random_measure as arrival_f, each with its own measurable rate in [0, rate_max] of infinite integral, and let the network, started by initialize, have come past time u with these queues still active. Then the agents that come to these queues from outside until u form independent Poisson processes, whatever routes, services and other queues have to do with the draws; and all these agents together form a Poisson process whose rate is the sum of the rates.",
  "every network of QueueServers, LossQueues and NullQueues, every finite family of its queues, every rates, every lists of intervals and counts, every history without further calls of initialize and clear, over the law of all independent draws", "a statement about joint probabilities over infinitely many draws, for all networks", [QN + ": initialize, _simulate_next_event, simulate", QS + ": poisson_random_measure, QueueServer.set_active, _add_arrival, next_event"])
p("one random number generator for all queues", "All queues and agents draw from one generator, and who draws next depends on the numbers drawn so far. Still, if the numbers of the generator are independent with some law, so are the numbers that different users get: any of them are independent with that law, and the sequences of users who draw again and again are independent. Hence the Poisson processes at several queues are independent also if all draws come from one generator.",
  "every law of the numbers, every measurable rule that says from the numbers so far who draws next, every set of users", "a statement about probabilities for every interleaving that depends on the draws", [QS + ": poisson_random_measure, QueueServer._add_arrival, next_event", CH + ": _choice", QN + ": _simulate_next_event"])
p("what animate does to the network", "animate() leaves the network, after m frames, as simulate(n=m) does. animate(t=d) performs one event in each frame as long as the clock is not past now + d, and nothing after that, so it goes through the state in which simulate(t=d) ends, and on from it if the clock is at now + d there. It never raises (queues of every class), and after each frame the colours are up to date as in C81; if only finitely many services, interarrival times and retries in a row fit before some time after now + d, it comes to rest.",
  "every network, every state after initialize, every number of frames, every d", "relates two loops over all networks; an animation is not looked at by tests", [QN + ": animate, simulate, _simulate_next_event(slow=True)"])
p("a queue with infinitely many servers and Poisson arrivals", "Let a queue of a network have infinitely many servers, poisson_random_measure as arrival_f with a measurable rate in [0, rate_max] of infinite integral, and services that take independent times with one law; no queue leads to the vertex where it begins and no LossQueue or ResourceQueue begins at the vertex where it ends. After initialize, at time u between events, if the queue is still active, those agents have left whose time of arrival plus service time is at most u and those are in the queue who have come by u and not left. Hence num_system is Poisson with the integral over [0, u] of rate(x) P(service > u - x) as mean, the number of departures is Poisson with the integral of rate(x) P(service <= u - x) as mean, and they are independent; the numbers of departures in consecutive intervals are independent Poisson, and independent of num_system at the end.",
  "every such network with queues of any class, every rate, every law of the services, all times, every history without further calls of initialize, clear and set_num_servers on the queue, over the law of all independent draws", "a statement about joint probabilities over infinitely many draws, for all networks and times", [QN + ": initialize, _simulate_next_event, simulate", QS + ": poisson_random_measure, QueueServer.next_event, _add_arrival, set_active"])
p("constructors of queues", "A queue class called with num_servers=v raises TypeError if v is neither an integer nor numpy.infty, ValueError if v is an integer below one, and otherwise makes an empty, inactive queue with v servers (none at a NullQueue) and the documented defaults. A new queue that is not a NullQueue has at least one server, and a new LossQueue has room for an agent.",
  "all five queue classes, all combinations of keyword arguments; for queues without servers or room every history of operations", "ranges over all argument values and all later histories of the queue", [QS + ": QueueServer.__init__, LossQueue.__init__, NullQueue.__init__", QE + ": ResourceQueue.__init__, InfoQueue.__init__"])
p("colours of queues", "The colours of a queue are those it was given, completed by the defaults of its class; making a queue changes no default and no colour that was given. In a network without colors in q_args a queue has the colours of its edge type.",
  "every sequence of constructions of queues of any classes with any dicts, shared or not, every assignment to a colour", "depends on which dict objects are shared by queues, in any order of construction", [QS + ": QueueServer.__init__, _default_colors", QE + ": ResourceQueue._default_colors", QN + ": __init__, default_q_colors"])
p("traffic in a network", "Over any number of events there are numbers F(j, k) of agents that went from queue j to queue k, along edges of the graph only, such that num_departures of j grows by the sum of F(j, k) over k, and the number of agents a QueueServer or LossQueue k got from other queues (arrivals, those turned away and those scheduled, without those made by its own arrival process) grows by the sum over j. (A ResourceQueue does not count who came to leave a resource.) So what leaves the queues that end at a vertex comes to the queues that begin there, if these are QueueServers or LossQueues. If these are QueueServers or NullQueues and nobody is greedy, then, with probability one: if departures at the vertex go on for ever, the share of queue e among them tends to the probability given for e; and if the queues that end at the vertex have departure rates and the number of agents in e grows slower than the clock, the departure rate of e is its rate of outside arrivals plus that probability times the sum of those rates (traffic equations).",
  "every network with queues of any class, every state reached, any number of events, every vertex and queue; the limits over the law of independent uniform draws, against any clock that goes to infinity", "conservation laws over all runs, and limits over infinite runs for almost all sequences of draws", [QN + ": simulate, _simulate_next_event", QS + ": QueueServer.next_event, _add_arrival; LossQueue.next_event", AG + ": Agent.desired_destination", CH + ": _choice"])
p("the unit of time", "If time is measured in another unit, or on any other scale with the same order, zero and infinity, and arrival_f, service_f and the small delay of agents blocked after service (EPS * uniform(0.33, 0.66)) are translated, then any calls of a queue or a network have the same effect: the same exception, or the same state and data with all times translated; simulate(t=d) has to be given the translated d, for a change of the unit. With blocking='RS' nothing need be known of the delay. With blocking='BAS' it does matter: EPS is a constant, so the same network in another unit can perform other events.",
  "every network with queues of any class, every two scales, every list of calls, every random outcome", "a relation between two runs on different inputs, for all programs and all scales", [QN + ": simulate, _simulate_next_event (EPS), initialize, copy, clear", QS + ": QueueServer.next_event, set_active, delay_service, set_num_servers; LossQueue.next_event", QE + ": ResourceQueue.next_event", PQ + ": push, pop"])
p("uninitialised memory of the scheduler", "What stands in the memory that push allocates with resize_smart when the arrays of the scheduler are full never has an effect: two executions of the same calls with other contents of that memory raise the same exception or end with the same queues, clock, counters, random draws used and entries of the scheduler.",
  "every network with queues of any class, every list of calls, every contents of each newly allocated piece of memory", "the contents of new memory cannot be chosen by a test", [PQ + ": push, heappop, pop", QN + ": _simulate_next_event"])
p("arguments of QueueNetwork", "QueueNetwork(g, q_classes, q_args) puts on each edge the queue that q_classes[et], or the default class, makes of q_args[et], or of no arguments, where et is the type of the edge. It changes nothing in the dicts given, it only adds items, so that a network made after others, from the same dicts or not, is the one that would have been made first; also when networks before raised exceptions. A network made from any graph whose edges have types 0, ..., 4 without further arguments is made without exception and meets all hypotheses of the network properties.",
  "every graph, every contents of the dicts, shared or not, every sequence of constructions, all queue classes", "depends on dict objects shared by several networks, in any order of construction", [QN + ": __init__", GP + ": _prepare_graph, _set_queues"])
p("the attribute blocking", "blocking='RS', in any mixture of upper and lower case, means repetitive service, every other string means blocking after service, and a value that is no string raises TypeError and changes nothing, not even the dicts passed to the constructor. blocking shows 'RS' or 'BAS', and assigning to it what it shows changes nothing.",
  "every string, every other value", "ranges over all strings", [QN + ": __init__, blocking"])
p("properties of vertices and edges", "vp(v, name) and ep(e, name) are the value given last to that property of that vertex or edge, or None, whatever other calls were made in between; vertex_properties() and edge_properties() are the names given so far. The entries of the arrays vertex_color, vertex_fill_color and edge_color are these properties, or zero while they are None. Vertices and edges are those of the data and those added before freeze(); is_edge is True exactly of the edges; after freeze() add_edge raises NetworkXError and vertices, edges and their numbers stay. A call that raises changes nothing.",
  "every graph, every sequence of set_vp, set_ep, new_vertex_property, new_edge_property, set_pos, add_edge and freeze, every name", "ranges over all histories of calls, with calls that raise among them", [GW + ": vp, ep, set_vp, set_ep, vertex_properties, edge_properties, new_vertex_property, new_edge_property, set_pos, add_edge, is_edge, freeze"])
p("excess over the servers", "num_servers is the value of the last valid set_num_servers. At any time there are at most num_servers agents in service, plus the sum of the amounts by which calls of set_num_servers lowered the number; a LossQueue holds at most num_servers + buffer agents, plus the same sum. Both bounds are attained.",
  "every QueueServer, InfoQueue, LossQueue with finitely many servers, every list of calls that sets no infinite number of servers", "ranges over all interleavings of set_num_servers, events and other calls", [QS + ": set_num_servers, next_event; LossQueue.next_event"])
p("arrivals per activation", "A queue creates at most max(active_cap - 1, 0) agents since the last clear and one more for each call of set_active. The bound is attained, for a cap of zero as well.",
  "every QueueServer, InfoQueue, LossQueue, every finite active_cap, every list of calls", "histories that deactivate and re-activate, with caps of any value", [QS + ": _add_arrival, set_active, active_cap, clear"])
p("the order in which agents leave", "With one server agents leave a queue in the order in which it admitted them: those that left, then the one in service, then those waiting are all agents admitted, in the order of admission, also if departures are postponed. With any number of servers agents leave in the order of admission if a service that starts later ends later and no departure is postponed. Agents with equal departure times leave in no particular order, so that agents overtake each other at queues with constant service times; agents with equal arrival times are admitted in no particular order.",
  "every QueueServer, InfoQueue, LossQueue, every history of calls (with one server: that keeps it)", "ranges over all histories and all service times; which agents overtake depends on the layout of the heaps", [QS + ": next_event, set_num_servers, delay_service, _service_from_queue"])
p("a queue with one server in the long run", "Run by itself, a queue with one server serves the n-th agent W(n) after its arrival, W(0) = 0 and W(n+1) = max(0, W(n) + service(n) - time between arrivals(n+1)). If the times of arrival are unbounded nobody waits for ever. If the times between arrivals and the services are independent, each of one law, with means a > 0 and s, then with probability 1 W(n) / n tends to max(0, s - a): waiting times grow linearly if s > a, and otherwise more slowly than n; and if s < a infinitely many agents do not wait at all.",
  "every QueueServer with one server, no active_cap and no deactive_t, run by set_active and simulate; all laws of times between arrivals and of services with means", "a limit over infinitely many agents, with probability 1", [QS + ": next_event, _add_arrival, set_active"])
p("throughput of a queue with one server", "Run by itself, a queue with one server lets agents leave in the order of arrival, each when its service, which starts as in C133, is over; everybody leaves if the times of arrival are unbounded. If the times between arrivals and the services are independent, each of one law, with means a > 0 and s, then with probability 1 the time at which the n-th agent leaves, divided by n, tends to max(a, s), and the share of the time until then for which the server is busy tends to s / max(a, s).",
  "every QueueServer with one server, no active_cap and no deactive_t, run by set_active and simulate; all laws of times between arrivals and of services with means", "a limit over infinitely many agents, with probability 1", [QS + ": next_event, _add_arrival, _service_from_queue"])
p("queues in a line", "Let queues with one server each form a line in a network: agents are created at the first only, and from each queue they go to the next; no queue can turn them away. Then the r-th agent that comes to a queue of the line, and the r-th that leaves it, is the r-th that was created, and it leaves at D(i, r) = the end of a service that starts at max(D(i-1, r), D(i, r-1)). If the times between arrivals, and the services of each queue, are of one law and pairwise independent, then with probability 1 D(i, r) / r tends to the greatest of the means of the times between arrivals and of the services of the queues up to the i-th: the slowest queue sets the pace.",
  "every network with queues of any class that contains such a line of any length, without max_agents, every history of initialize (of queues that are not later ones of the line) and simulate; all laws with means", "a formula for all histories, and a limit over infinitely many agents, with probability 1", [QN + ": _simulate_next_event, initialize, simulate", QS + ": QueueServer.next_event, _add_arrival, _service_from_queue"])
p("numbers of departures from queues in a line", "In a line of queues as in C135, at a time u between events with the first queue active, exactly those agents have come to a queue of the line, and left it, whose time to come and to leave by the formula of C135 is at most u; num_arrivals and num_departures are the numbers of these. Hence, with probability 1, if the times between arrivals have a positive mean, num_departures of the i-th queue divided by the time tends to 1 over the greatest of the means named in C135, uniformly in all histories.",
  "every network with queues of any class that contains such a line of any length, without max_agents, every history of initialize (of queues that are not later ones of the line) and simulate, every time between events; all laws with means", "an equality for all histories and times, and a limit with probability 1", [QN + ": _simulate_next_event, initialize, simulate", QS + ": QueueServer.next_event, _add_arrival, _service_from_queue"])
p("changing a line of queues", "Take two lines of queues as in C135, in any two networks. If arrival_f and service_f of the first return no later times than those of the second at the same places, for calls of the same number with no later an argument, then the r-th agent comes to and leaves each queue of the first no later than that of the second. If service_f of each queue adds a constant time (or is any monotone function of the time alone, and these commute), the order of the queues does not matter: with the queues in another order the r-th agent leaves the last queue at the same time. If the services of a queue differ the order does matter.",
  "every two networks with queues of any class that contain such lines of any length, all pairs of histories, every agent", "a relation between two systems, for all histories of both", [QN + ": _simulate_next_event, initialize, simulate", QS + ": QueueServer.next_event, _add_arrival, _service_from_queue"])
p("the law of the waiting time at a queue with one server", "Run by itself, a queue with one server whose times between arrivals and services are independent, each of one law, with means a and s: if s < a the waiting times settle. There is a probability law such that the chance that the n-th agent waits for x or less falls, as n grows, to the probability this law gives to x or less, for every x; it is the law of the largest of the sums of the first k services less the k times between arrivals after them, k = 0, 1, .... If s > a the chance that the n-th agent waits for x or less tends to 0, for every x.",
  "every QueueServer with one server, no active_cap and no deactive_t, run by set_active and simulate; all laws of times between arrivals and of services with means; every x", "a limit of probabilities over infinitely many agents", [QS + ": next_event, _add_arrival, set_active"])
p("which law the waiting time settles to", "In the case s < a of C138 a probability law is the one the waiting times settle to just if it does not change from one agent to the next: if V has this law and service and time between arrivals are independent of it and of each other, max(0, V + service - time between arrivals) has the same law. So there is exactly one law that does not change.",
  "every QueueServer with one server, no active_cap and no deactive_t, run by set_active and simulate; all laws of times between arrivals and of services with means; every probability law", "an equality of a limit of probabilities with the solution of an equation", [QS + ": next_event, _add_arrival, set_active"])
p("a queue with one server and exponential times", "Run by itself, a queue with one server, arrival_f t + exponential(1 / lam) and service_f t + exponential(1 / mu), 0 < lam < mu: the chance that the n-th agent waits longer than x tends to lam / mu * exp(-(mu - lam) x), and the chance that it is in the queue longer than x, waiting and service together, to exp(-(mu - lam) x). For the default functions, t + exponential(1.0) and t + exponential(0.9), these are 0.9 exp(-x / 9) and exp(-x / 9).",
  "every QueueServer with one server, no active_cap and no deactive_t, run by set_active and simulate; all rates lam < mu; every x >= 0", "limits of probabilities over infinitely many agents", [QS + ": QueueServer.__init__, next_event, _add_arrival, set_active"])
p("mean waiting times at a queue with one server", "Run by itself, a queue with one server whose times between arrivals and services are independent, each of one law, with means a and s: the mean waiting time grows from agent to agent. If s < a it tends to the mean of the law of C138 (infinite or not); and if times between arrivals and services have variances no agent waits in the mean longer than (variance of times between arrivals + variance of services) / (2 (a - s)) (Kingman). For exponential times of rates lam < mu it tends to lam / (mu (mu - lam)).",
  "every QueueServer with one server, no active_cap and no deactive_t, run by set_active and simulate; all laws of times between arrivals and of services with means", "an inequality for means over all draws, for every agent and all laws", [QS + ": next_event, _add_arrival, set_active"])
p("a queue with one server and Poisson arrivals", "Run by itself, a queue with one server and exponential times of rate lam between arrivals, services of any one law with mean s and lam s < 1, all independent: the chance that the n-th agent does not wait tends to 1 - lam s, and for every t > 0 the mean of exp(-t W), W its waiting time, tends to (1 - lam s) t / (t - lam (1 - B)), B the mean of exp(-t * service) (Pollaczek and Khinchine).",
  "every QueueServer with one server, no active_cap and no deactive_t, run by set_active and simulate; all rates lam, all laws of services with lam s < 1, every t > 0", "limits of probabilities over infinitely many agents, for all laws of services", [QS + ": next_event, _add_arrival, set_active"])
p("the mean waiting time with Poisson arrivals", "In the case of C142, if the services have a second moment, the mean waiting time of the n-th agent tends to lam * (mean of service ** 2) / (2 (1 - lam s)).",
  "every QueueServer with one server, no active_cap and no deactive_t, run by set_active and simulate; all rates lam, all laws of services with lam s < 1 and a second moment", "a limit of means over infinitely many agents, for all laws of services", [QS + ": next_event, _add_arrival, set_active"])
p("long waiting times at a queue with one server", "Run by itself, a queue with one server whose times between arrivals and services are independent, each of one law: if the mean of exp(theta * (service - time between arrivals)) is at most 1 for a theta > 0, every agent waits longer than x with probability exp(-theta x) or less, for every x, and in the mean for 1 / theta or less (Kingman). There is such a theta if services are shorter in the mean than times between arrivals and the mean of exp(r * service) is finite for some r > 0.",
  "every QueueServer with one server, no active_cap and no deactive_t, run by set_active and simulate; all laws of times between arrivals and of services with means; every theta, every agent, every x", "an inequality for probabilities over all draws, for every agent and all laws", [QS + ": next_event, _add_arrival, set_active"])
p("a queue with several servers in the long run", "Run by themselves, a queue with m servers and a queue with one server that is m times as fast, with the same arrivals: the times at which the n-th agent starts service at the one and at the other differ by no more than the longest of the services before takes at the first. If the times between arrivals and the services are independent, each of one law, with means a > 0 and s, then with probability 1 nobody waits for ever, and the waiting time of the n-th agent at the m servers, divided by n, tends to max(0, s / m - a).",
  "every QueueServer with any finite number of servers, no active_cap and no deactive_t, run by set_active and simulate; all times between arrivals and services, all pairs of histories; all laws with means", "a relation between two systems for all histories, and a limit over infinitely many agents", [QS + ": next_event, _add_arrival, _service_from_queue, set_active"])
p("numbers of agents at a queue with several servers", "Run by itself, a queue with m servers at a time u between events, once active: exactly those agents have come whose time to come is at most u; num_departures is the number of agents n with B(n) + service(n) <= u, where B(n) is the time at which the n-th agent starts service if each goes to the server that is free first; num_system is the difference. If the times of arrival are unbounded every time u comes. If the times between arrivals and the services are independent, each of one law, with means a > 0 and s, then with probability 1 num_departures / u tends to 1 / max(a, s / m) and num_system / u to 1 / a - 1 / max(a, s / m), uniformly in all histories.",
  "every QueueServer with finitely many servers, no active_cap and no deactive_t, run by set_active and simulate; every time between events; all laws of times between arrivals and of services with means", "an equality for all histories and times, and a limit with probability 1", [QS + ": next_event, _add_arrival, _service_from_queue, set_active"])
p("how many agents an agent finds and leaves behind", "Run by itself, a queue with one server: after the call of next_event at which the n-th agent leaves, num_system is k or more exactly if the k-th agent after it comes no later than it leaves; before the call at which agent n + k comes, num_system is k or more exactly if it comes no later than the n-th leaves. If times between arrivals are exponential of rate lam and services of rate mu > lam, all independent, the chance that the n-th agent leaves k or more agents behind, and the chance that it finds k or more, tend to (lam / mu) ** k; for the default functions to 0.9 ** k.",
  "every QueueServer with one server, no active_cap and no deactive_t, run by set_active and simulate; all times between arrivals and services, with ties; every n and k; all rates lam < mu", "an equivalence for all histories, and limits of probabilities over infinitely many agents", [QS + ": QueueServer.__init__, next_event, _add_arrival, set_active"])
p("how many agents are left behind with Poisson arrivals", "Run by itself, a queue with one server and exponential times of rate lam between arrivals, services of any one law with mean s and lam s < 1, all independent: the number of agents the n-th agent leaves behind when it leaves (num_system after that call of next_event) is k with the probability that is the mean of exp(-lam V) (lam V) ** k / k!, V the time from its arrival to its departure; and the mean of z ** (that number) tends, for 0 <= z < 1, to (1 - lam s) (1 - z) B / (B - z), B the mean of exp(-lam (1 - z) service) (Pollaczek and Khinchine).",
  "every QueueServer with one server, no active_cap and no deactive_t, run by set_active and simulate; all rates lam, all laws of services with lam s < 1; every n and k; every z", "limits of probabilities over infinitely many agents, for all laws of services", [QS + ": next_event, _add_arrival, set_active"])
p("the mean number of agents left behind with Poisson arrivals", "Run by itself, a queue with one server and exponential times of rate lam between arrivals, services of any one law, all independent: the mean of the number of agents the n-th agent leaves behind when it leaves (num_system after that call of next_event) is lam times the mean of V, the time from its arrival to its departure; and the r-th factorial moment of that number is the mean of (lam V) ** r. These hold whether lam s < 1 or not (s the mean service) and also when the means are infinite. If lam s < 1 and services have a second moment, the mean number left behind tends to lam s + lam ** 2 * (mean of service ** 2) / (2 (1 - lam s)).",
  "every QueueServer with one server, no active_cap and no deactive_t, run by set_active and simulate; all rates lam, all laws of services; every n and r", "an equality of means over all draws, for every agent, and a limit over infinitely many agents", [QS + ": next_event, _add_arrival, set_active"])
p("how the numbers of agents found and left behind settle", "Run by itself, a queue with one server whose times between arrivals and services are independent, each of one law, with means a and s: the chance that the n-th agent leaves k or more agents behind (num_system after the call of next_event at which it leaves) is the chance that agent n + k finds k or more (num_system before the call at which it comes). Both chances grow with n, and tend to the same limit p(k). If s < a, p(k) tends to 0 as k grows, so the number found and the number left behind settle to one law; if s > a, p(k) = 1 for every k.",
  "every QueueServer with one server, no active_cap and no deactive_t, run by set_active and simulate; all laws of times between arrivals and of services with means; every n and k", "an equality and limits of probabilities over infinitely many agents, for all laws", [QS + ": next_event, _add_arrival, set_active"])
p("a queue with infinitely many servers", "Run by itself, a queue with num_servers infinity at a time u between events, once active: exactly those agents have come whose time to come is at most u; num_departures is the number of agents whose time to come plus service is at most u; num_system is the number of the others that have come. If the times of arrival are unbounded every time u comes. If times between arrivals are exponential of rate lam and services of any one law with a mean s, all independent, the mean of num_system at time u is lam times the integral, for x from 0 to u, of the chance that a service takes longer than x; as u grows it tends to lam s.",
  "every QueueServer with infinitely many servers, no active_cap and no deactive_t, run by set_active and simulate; every time between events; all rates lam and all laws of services with a mean", "an equality for all histories and times, and means over all draws", [QS + ": next_event, _add_arrival, set_active"])
p("the law of the number of agents found with Poisson arrivals", "In the case of C148 there is one law pi such that the chance that the n-th agent finds exactly k agents (num_system before the call of next_event at which it comes) and the chance that it leaves exactly k behind (num_system after the call at which it leaves) both tend to pi(k). pi sums to 1, pi(0) = 1 - lam s, and the sum of z ** k * pi(k) is, for 0 <= z < 1, (1 - lam s) (1 - z) B / (B - z), B the mean of exp(-lam (1 - z) service).",
  "every QueueServer with one server, no active_cap and no deactive_t, run by set_active and simulate; all rates lam, all laws of services with lam s < 1; every k and z", "limits of probabilities over infinitely many agents, for all laws of services", [QS + ": next_event, _add_arrival, set_active"])
p("services as long in the mean as times between arrivals", "Run by itself, a queue with one server whose times between arrivals and services are independent, each of one law, with equal means: unless a service is with probability 1 as long as a time between arrivals, the chance that the n-th agent waits for x or less tends to 0 for every x, and the chances that it finds k or more agents (num_system before the call of next_event at which it comes) and leaves k or more behind (num_system after the call at which it leaves) tend to 1 for every k. In the other case nobody ever waits, with probability 1.",
  "every QueueServer with one server, no active_cap and no deactive_t, run by set_active and simulate; all laws of times between arrivals and of services with equal means; every x and k", "limits of probabilities over infinitely many agents, for all laws", [QS + ": next_event, _add_arrival, set_active"])
with open(os.path.join(os.path.dirname(os.path.dirname(os.path.abspath(__file__))), "properties.jsonl"), "w") as f:
    for x in P: f.write(json.dumps(x) + "\n")
print(len(P))
