# Formal model of queueing-tool: design

The code under `/repo` (djordon/queueing-tool, pinned commit) is modelled in Lean 4 and the
properties of `properties.jsonl` are proved about the model. Nothing in `/repo` is executed.

## Trusted base

* Lean's kernel (4.33.0) and the Mathlib modules imported.
* Axioms: at most `propext`, `Classical.choice`, `Quot.sound` (the three standard ones). No own axioms,
  no `sorry`, no `native_decide`, no `bv_decide`. `lake build` followed by `vcheck` checks this.
* The transcription of Python/Cython into Lean by hand. Every definition cites the file and lines
  it transcribes; simplifications are marked `SIMPLIFIED:` in the comment.

## Modelling decisions

* **Floats.** Times and probabilities live in an arbitrary type `T` with `LinearOrder`, `OrderTop`
  (`⊤` = `infty`), and *lawless* `Zero`/`Add` where arithmetic occurs. So results about order hold for
  IEEE doubles without NaN, and no law of real arithmetic (associativity, exactness) is assumed unless
  the theorem says so (routing probabilities: exact arithmetic is stated as such).
* **Randomness and user functions.** `arrival_f`, `service_f`, `uniform()`, ... are modelled by arbitrary
  functions of (call number, argument); the call counter is part of the state. A theorem for all such
  functions covers every random, stateful or adversarial outcome.
* **Exceptions** are values of `Except Err`; out-of-range accesses in Cython code compiled with
  `boundscheck(False)` are a distinguished error value, so "no memory error" is a theorem.
* **Heaps.** CPython's `heapq` and the hand-written one in `priority_queue.pyx` are the same algorithm;
  one generic model (index-level, `siftdown`/`siftup` loops) is used for both.
* **Observations.** The calls `agent.queue_action(queue, stage)` made by a queue are recorded in a log
  component of the state, which only serves to state properties about the order of service.
* **Mutable aliasing.** A network's queues are a list indexed by edge index; when source and
  destination queue coincide the model reads the updated entry, as Python does.

## Modules

| module | content |
|---|---|
| `Heap`, `HeapProofs` | heapq / `_siftdown`, `_siftup`, `heapify`, push, pop, and their specification |
| `PQ` | `network/priority_queue.pyx` |
| `Queue` | `queues/queue_servers.py` (QueueServer, LossQueue, NullQueue), ResourceQueue, `queues/agents.py` |
| `QueueSpec`, `QueueRun`, `QueueInv*`, `QueueData`, `QueueShift`, `QueueAct`, `QueueFetch` | effect of every operation, histories, invariants |
| `NetTrip`, `NetLaw` | journeys of agents through the data of a network; integrals over the clock of a network |
| `NetDrain`, `NetPace` | potential of a network without cycles, blocked agents get on; potential up to a time horizon |
| `QueueLaw`, `QueueFcfs` | histories with all states passed through, time integrals, stamped logs; balance of integrals and recorded rows; first come first served as a recursion |
| `Routing` | `queues/choice.pyx`, `desired_destination`, `set_transitions`, `transitions` |
| `Net` | `network/queue_network.py`: event loop, initialize, clear, copy, time, description, collecting data |
| `NetInv`, `NetQueue`, `NetStep`, `NetEvent`, `NetRun`, `NetProj`, `NetFacts` | scheduling invariant, effect of an event, histories |
| `AnyQueue`, `AnyNet`, `AnyRun`, `AnyFacts`, `AnyData` | the same for networks with queues of all four classes (`OkA`, `NetInvA`, `StepOutA`) |
| `UnionFind` | `union_find.py` |
| `Dict`, `Graph` | Python dicts; `graph/graph_wrapper.py` (adjacency2graph, QueueNetworkDiGraph.edge_index, add_edge), `graph2dict` |
| `GraphNet` | `graph/graph_preparation.py`, construction of a QueueNetwork, `_get_queues`, `reset_colors` |
| `NetData` | `get_agent_data`, `get_queue_data` |
| `Resource` | effect of every operation of a ResourceQueue with ResourceAgents, invariants (`queues/queue_extentions.py`) |
| `Colour` | `_current_color` of all queue classes, `_update_vertex_color` |
| `NetColour` | `_update_all_colors`, `_update_graph_colors`, `_simulate_next_event(slow=True)` (the frames of `animate`), colours of `show_active` |
| `NetArgs` | `QueueNetwork.__init__` with `q_classes`, `q_args` and the dicts in it as objects; `blocking` |
| `GraphProps` | properties of vertices and edges of `QueueNetworkDiGraph` by name, `freeze`; exceptions with the state they leave |
| `Rescale` | every function of a queue and of a network commutes with an increasing map of times; two schedulers with the same entries behave alike |
| `Construct` | `__init__` of the five queue classes: checks, defaults, and the dicts of colours as objects |
| `Animate` | `animate`: the calls of `update` (the frames), one event each until the clock is past the period |
| `Info` | InfoQueue and InfoAgent: network information held and exchanged, `_add_arrival` (`queues/queue_extentions.py`) |
| `InfoStats` | `InfoAgent.stats` (`queues/queue_extentions.py`) |
| `GraphGen` | `graph/graph_generation.py`: minimal_random_graph, set_types_random, set_types_rank, generate_random_graph, generate_pagerank_graph |
| `GraphDraw` | the arrays `pos`, `edge_color`, `vertex_fill_color`, set_pos, set_vp, set_ep, new_..._property, lines_scatter_args, get_edge_type, out_neighbours (graph_wrapper.py) |
| `EdgeLength` | `_calculate_distance`, `add_edge_lengths` over the real numbers |
| `GraphShow` | `show_type`, `show_active` on the arrays of `GraphDraw`; networkx's `copy` of the graph |
| `ThinMath` | no code: an integral equation whose bounded solutions are multiples of Poisson probabilities, for C95 |
| `DrawMachine`, `NetFed` | no code: machines fed with independent uniform draws; the network as such a machine, for C96, C108 and C111 |
| `Props/*` | the theorems `Cnn_...` with their specifications and witnesses |

Not modelled: drawing itself (matplotlib; `GraphDraw` ends with the arrays passed to it), pagerank/spring layouts, networkx internals beyond the documented dict semantics,
`multi_class` string dispatch, float NaN, KeyboardInterrupt, user subclasses that override methods.

Classes of queues in networks: the theorems with the hypothesis `N.OkA` allow all four classes; those with `N.Ok` (C39-C45,
C87, C88) allow QueueServers, LossQueues and NullQueues. C98-C100 and C114 are C39-C44 and C88 for all classes,
and the theorems `C45_any_…` are C45 for all classes.

## Findings in the code (properties that are false as stated)

For these the model proves (a) a concrete execution violating the property and (b) the strongest
conditional version (named `_partial`).

* F1 A queue with several servers can leave duplicate scheduler entries; when it has emptied, the duplicate is
  popped as an event: `num_events` grows though nothing happens (C45).
* F2 `QueueNetwork.time` and `next_event_description` look at the top of the scheduler, which may be superseded (C46, C47).
* F3 lowering then raising `num_servers` oversubscribes the servers; `set_num_servers(infty)` on an
  infinite-server queue raises TypeError from `range(nan)` (C08, C20).
* F4 `active_cap = 0` still admits one arrival; re-activation after reaching the cap admits more (C14).
* F5 with simultaneous events an agent already admitted to move to a LossQueue can be lost there; so can one that goes round a loop
  at a LossQueue whose number of servers was lowered (C49).
* F6 ResourceAgent: `queue_action` acts at every stage, so servers are decremented at arrival/start and at departure;
  deposit and blocked paths do not continue the outside stream; `clear` does not restore servers (C24, C68, C21).
* F7 InfoQueue raises AttributeError at `deactive_t` (C70).
* F8 NullQueue.clear does nothing (C21, C52).
* F9 set_transitions drops probability on non-neighbours; dict form is not atomic (C36, C37).
* F10 `_choice` can pick a zero-probability edge when u = 0 (C31).
* F11 PriorityQueue built from no keys: push writes out of bounds (C02).
* F12 reset_colors/_prepare_graph pair edges and queues by different orders (C61).
* F13 networkx's `copy` of the graph loses edge_index (C53): on a copied network no edge can be named, edge types raise KeyError,
  nothing can be drawn (C104).
* F14 minimal_random_graph(1) has no vertices (C63).
* F15 an exhausted network moves `current_time` to infinity (C56).
* F16 if a service never ends (infinite service time) at a queue on a self-loop, the key (infinity, k) is scheduled; when it
  is reached `current_time` becomes infinite or the event raises TypeError (C41_infinite_service_crash).
* F17 `copy` rebuilds the scheduler from the queues, so simultaneous events may be performed in another order than in the
  original (C53_copy_differs_in_tie).
* F18 `_set_queues` writes `num_servers` into the argument dict shared by all edges of a type: the capacity of the first
  target is used for all (C66_first_capacity).
* F19 `_update_graph_colors` fills vertex `v` instead of `pv` when the previous edge was a loop (C81).
* F20 with `adjust_graph=True` (default) the vertex property `cap` is lost before it is read (C66_capacity_lost).
* F21 edges given as a tuple of edges, or as a list with a member that is not a pair, silently select all queues
  (C54_tuple_of_edges).
* F22 an `edge_type` matrix cannot give type 0 (C58_matrix_type_zero); an empty dict as adjacency or `edge_type` raises KeyError
  (C58_when_ok); `QueueNetwork` of an empty graph likewise.
* F23 a ResourceAgent takes a server when it arrives, possibly the one it needs itself, and waits for ever
  (C68_takes_its_own_server); a deposit does not start service for those who wait, so later agents overtake them
  (C75_waits_at_idle_server).
* F24 colours: `coloring_sensitivity = 0` with infinitely many servers gives `nan`, a negative one components above 1 or
  ZeroDivisionError; `ResourceQueue.set_num_servers` takes negative numbers (components above 1) (C67_*).
* F25 an agent that arrives at an InfoQueue at the very moment of a departure is admitted without its information being
  looked at (C71_tie); with the default `net_size = 1` every InfoQueue whose edge index is positive raises IndexError
  at its first arrival (C71_default_net_size). From reading: a factory other than `InfoAgent` gets one argument too
  many and raises TypeError.
* F26 `set_types_rank`: the docstring says that the vertices first by rank get type 2, the code gives them 3 and the near ones 2;
  with `pType2 = 0` every vertex becomes one of the first (`tmp[-0]`, C65_zero). The docstring of `minimal_random_graph` says
  all pairs within the distance r are joined; pairs at exactly r may be left out (example at C63).
* F27 `generate_random_graph` with a `seed` passes it on to `set_types_random`, which seeds again, so the types are drawn
  with the same random numbers as the positions of the points (C108_seeded).
* F28 `set_num_servers` on a queue of a running network starts service for waiting agents at the clock of the queue (not of the
  network) and does not tell the scheduler; they are then performed late, and the clock of the network can run backwards
  (C79_clock_runs_back).
* F29 `_update_all_colors` does not refill a vertex with a loop of type 0 whose loop has the smallest number of all edges there, so
  after `show_active` or `show_type` it keeps the colour of that drawing (C80_show_active_stays).
* F30 With `blocking='RS'` and services that take no time a blocked agent is served again and again at the same time, and `simulate`
  never gets on (C87_rs_zero_service_stuck, C88_rs_zero_service_endless). With `blocking='BAS'` the same can happen from t = 2**30 on,
  where `t + EPS * uniform(0.33, 0.66)` is rounded to `t`: with four events at one time the heap of the scheduler can pass over one for ever
  (C115_starves, C115_endless).
* F31 `self.pos` holds the positions in the order of `nodes()` but is indexed by vertex, so vertices are drawn at each other's places unless
  the nodes are in the order 0, 1, ... (C90_right_iff). Graphs from `minimal_random_graph`, and so all generated graphs, have nodes in the
  order in which the closest pairs were found (C90_minimal_misplaced).
* F32 A new vertex after `set_pos`, or a new edge after `new_edge_property('edge_color')`, has no row in the array; drawing or colouring
  raises IndexError (C89_new_vertex_fails, C89_new_edge_fails).
* F33 `_calculate_distance` takes sines of the coordinates as they are, i.e. as radians, but multiplies the angle by `pi / 180`: for radians the
  result is too small by that factor (C93_too_short), for degrees it can be zero between different points (C93_degrees). `set_types_rank`
  only compares distances, but for degrees the comparisons are wrong as well.
* F34 `show_type(t)` raises KeyError if a loop of type t has a ResourceQueue that was given `colors` without the key `vertex_color`: its
  defaults only add `vertex_pen_color` (C94_show_type_when). From reading: `QueueNetwork(g)` raises KeyError in `set_pos` if some vertices of
  `g` have a `pos` and others do not.
* F35 `poisson_random_measure` never returns with positive probability if the integral of the rate after `t` is finite, e.g. with
  probability `exp(-∫ rate)` if the rate becomes zero for good (C95_never, C95_hangs, C95_hang_met). The docstring only asks for a bounded
  rate.
* F36 a `rate_max` smaller than the rate is not noticed: the arrivals then follow `min(rate, rate_max)` (C95_capped, C95_capped_met).
* F37 an agent that is held back at a full LossQueue draws a new destination at its next attempt, under both policies, although the docstring
  of `blocking` says that it waits for that queue (C97_anew, C97_gives_up_bas, C97_gives_up_rs). With `'BAS'` it still waits for a
  departure from the queue it then may not go to.
* F38 a ResourceQueue on a loop: an agent that deposits there in the event in which it left the queue makes the scheduler hold the key
  (infinity, k); after a second visit `simulate` raises TypeError though all times are finite (C99_resource_loop_crash).
* F39 with `blocking='BAS'` a ResourceQueue all of whose resources are out is "at capacity", so it holds back the very agents that bring
  resources back, until time infinity if nobody is in service there: they are locked out for ever (C103_locked_out).
* F40 the row of a ResourceAgent that takes the last server on arrival and then has to wait says that nobody waits
  (C106_line_miscounted).
* F41 `simulate(t=...)` of a queue never ends if interarrival times are zero, and `simulate(nD=...)` never does if services are infinite
  but agents keep arriving (C107_t_endless, C107_nD_endless); `simulate(nA=...)` always ends (C107_simulate_nA_ends).

* F42 `initialize` again in the middle of a simulation schedules arrivals relative to each queue's own clock, so `current_time` can run
  backwards (C109_clock_runs_back), and `max_agents` can be exceeded (C109_max_agents_exceeded).
* F43 when `max_agents` is reached the queues at which agents arrive are made inactive for good: a network that was full once can stay
  empty for ever (C110_dies). A negative `max_agents` leaves out queues from the end of the selection (C110_negative_max_agents).
* F44 `InfoAgent.queue_action` runs at arrival, before service starts, at the start of service and at departure, so `stats` of an agent gets minus
  its time of arrival and twice the time waited (C113_wrong_total), and counts each visit with waiting twice; `stats` is an int32 array, so
  fractions are cut off (from reading).
* F45 switching `collect_data` during a visit makes wrong rows: stopped, the row never gets its departure (C117_stopped_during_visit);
  started, the times are entered in the row of an earlier visit of the agent (C117_started_during_visit).
* F46 `animate(t=d)` stops when the clock is past `now + d`, `simulate(t=d)` when it is at `now + d` or past it; so the animation can perform
  more events (C120). matplotlib calls `update` once more than there are frames if no `init_func` is given (from reading).
* F47 The keyword `nServers` of the constructors goes before `num_servers` and is not checked, nor is `qbuffer`: `QueueServer(nServers=0)` serves nobody,
  `LossQueue(num_servers=2, qbuffer=-2)` admits nobody (C122). `num_servers is not infty` compares objects: `math.inf` raises TypeError.
* F48 The dict `colors` given to a queue is completed in place, and a queue without `colors` has the class attribute itself as its dict: queues that
  share a dict see each other's assignments, and get the defaults of the class that was first (C123).
* F49 `EPS` is a time: with blocking='BAS' a network simulated in another unit of time can perform other events (C125_eps_has_a_unit).
* F50 Without `q_args` there are arguments for the types 0, ..., 4 only: `QueueNetwork(g, q_classes={7: QueueServer})` raises KeyError if there is an
  edge of type 7, with `q_args={}` it does not (C127_type_without_args).
* F51 `num_servers` from capacities of vertices and `colors` are entered in the user's dicts in `q_args`, so the next network made from them has the
  capacities and colours of the first (C127_capacity_remembered, C127_colours_remembered).
* F52 `set_vp`, `set_ep` and `set_pos` write before they raise: a property whose name is an attribute of networkx graphs (`name`, `degree`, ...)
  is stored and TypeError raised; `set_pos` with a vertex missing changes the properties but not the array that is drawn
  (C129_raises_after_writing, C129_set_pos_half).
* F53 `set_ep(e, 'vertex_color', x)` overwrites the colour of the vertex whose number is that of the edge, `set_vp(v, 'edge_color', x)`
  that of an edge; `add_edge(u, v, edge_color=x)` does not reach the array (C129_wrong_array, C129_add_edge_color).
* F54 Agents whose times are equal leave and enter queues in the order the heaps happen to give: at a queue with constant service
  times agents overtake each other after `set_num_servers` (C132_overtaking, C132_equal_arrivals).

Not modelled: `graph/_pairwise.pyx`: nothing in the package imports it and setup.py does not build it.

A loop at a LossQueue whose servers were lowered can lose an agent that goes round it, without ties: `C49_lost_in_loop`.

## Plan per property

* C01-C04: index-level heap model; invariant "heap-ordered except at one position" for the sift loops, `List.Perm`
  for contents; PQ invariant: each array entry < actual size, physical ≥ logical; specification as a multiset of pairs + last-push map.
* C05-C16, C19-C29: invariant `QInv` of a single queue, preserved by every API operation (any sequence); log identity for FIFO.
* C17, C18: induction on loop/fuel; a terminating run is a finite iteration of `next_event`.
* C30: thinning loop over an arbitrary draw sequence; run relation with fuel.
* C31-C33: loop models of `_choice`, `_argmin`; characterisation as least index; interval lengths over ordered fields.
* C34-C38: functional model on association lists; sums with an abstract `isclose` for validation.
* C39-C52, C56: network state machine; invariant relating scheduler to queues; induction over any number of steps.
* C53: copy as identity on the value-level state (bisimulation) + the edge_index defect.
* C54, C55: list-level models.
* C57-C66: list/dict-level graph models.
* C67: ordered-field arithmetic.
* C80: loop invariant over the prefix of edges done, vertices reached, vertices reached before their loop. C81: invariant "all colours
  right except those depending on S, V, L" for every half of a repaint; the slow event loop simulates the fast one.
* C68-C71: models of the extension classes.
* C82: invariant `Ledger` with one lemma per elementary change of the data (row opened, service started, service ended, time passes).
  C83: invariant `FcfsInv` between state, stamped log and recursion. C84: strong induction over the recursion of both queues.
* C85: invariant `Trips` (every agent has one journey; where it is in the network is the state of its last visit). C86: each step of
  the network is a sequence of calls of each queue at network time (`Tracks`), so `Ledger` can be read at the clock of the network.
* C87: a potential (agents and still admissible arrivals weighted by rank) falls at every arrival and move and is kept by blockings;
  a second measure, by induction on the rank of the blocked queue, excludes infinitely many blockings in a row.
* C88: a potential up to the horizon: how many services each agent, and how many arrivals each stream, can still have before it.
* C89, C90: an invariant of the arrays over all methods that write them; the loop of lines_scatter_args writes each number once.
* C91: `get_edge_type` filters the edges; effect of `set_ep`.
* C92: composition of C63, C65, C76, C77 (generated graphs), C59, C66, C73 (networks from graphs), C50, C41 (they run).
* C93: haversines: the angle between unit vectors is `2 arctan2(sqrt a, sqrt (1 - a))`; metric properties of angles from Mathlib.
* C94: the loops write each vertex and each edge once; then C89.
* C95: real numbers and Mathlib's measures. The law of the draws is the infinite product of (standard exponential x uniform). The
  probability of given counts satisfies the equation of the first candidate (accepted, rejected, or after the first interval, where the
  exponential forgets); `ThinMath` shows that only products of Poisson probabilities do. Repeated calls are tied to accepted candidates by
  counting them (`arrives_iff`).
* C96, C97: a network fed with draws is a machine that looks at draw number `unifCalls` and moves this number on when it makes use of it
  (`DrawMachine`, `NetFed`); it takes countably many states, so the past is a countable union of events that depend on draws before
  that number, and the next draw is independent of them. Summing over the time of the next departure gives the law of journeys.
* C111: the list of the destinations of the agents leaving queues that end at `v` is read off the story of the network. As in C96 each new
  entry is an independent choice, so a list is at most as likely as for independent choices; Hoeffding's inequality (Mathlib) bounds the
  share of `e` for these, and Borel-Cantelli gives the limit.
* C112: `Stream`: an invariant of one queue over all its operations: the agents created since `initialize` and the call number and time of the
  last draw. For the Poisson law, `Feeds` says that call `j` of `arrival_f` at the time of the `j`-th return of repeated calls is the next
  return; so counting the agents created is counting returns, and C95 applies. All returns exist with probability one if the rate has an
  infinite integral.
* C115: `C115_retry` computes the event; the scheduler of the example goes through three states, the queues keep theirs up to counters.
* C116: every function of the model commutes with `forget` (`data := []`, `collect_data := False`), shown function by function; programs by induction.
* C117: what a call does to the rows of an agent is a function of the state without data; so the marks of the visits and the rows of the two queues change alike.
* C118: as C112 for each queue; the counts are functions of independent draws; the superposition by induction over the intervals, with the multinomial theorem.
* C119: the chance, after N numbers, that the chosen users get numbers in the chosen sets is a martingale: to draw the N-th number anew does not
  change the law. Its limit is the indicator of the event.
* C120: a frame is an event with `slow=True` or nothing; induction over the frames, then C81 and C88.
* C121: `Free`: an invariant of one queue: nobody waits, the times in service and those of past departures together are the times of arrival plus
  services. `Props/Marked`: each arrival carries an independent mark, its service time; the mean of a product over the arrivals is computed as in C95
  (a renewal equation with one solution), so the numbers of arrivals with marks in disjoint classes have the generating function of independent Poisson numbers.
* C122: by cases; that nobody is served or admitted is an invariant over histories. C123: induction over the constructions, with the contents of all dicts as state.
* C124: `handed` (arrivals + turned away + scheduled - made outside) changes in no event of a QueueServer or LossQueue but in a handover, by one; F is built event by event.
  The limits: the list of decisions at the vertex (C111) has the departures as length and the handovers to e as count of e. The traffic equations
  follow with num_departures = handed + outside arrivals - lost - num_total.
* C125, C126: a relation between states (`Net.Same`: times mapped, same entries of the scheduler) is kept by every call; for C126 the map is the identity.
* C129: per call, the dict of each vertex and edge is the old one with what the call writes; arrays by an invariant, with edge numbers injective.
* C130, C131: induction over the list of calls (`runOps`); `lowered`, `serversAfter` and `activations` are computed from the calls alone, without the model.
* C132: the agents in service, sorted by departure time, follow those that left in the order of the starts of service.
* C133: Lindley's recursion (C83) with the stream of arrivals; the waiting time is the largest excess of services over times
  between arrivals over a last part of the past, so the strong law of large numbers (Mathlib) gives its rate of growth.
  That agents start at all uses that each event is an arrival or a departure and that the server is not idle.
* C134: C133 with the order of departures (C132) and the strong law for arrivals and services.
* C135: each queue of the line has a history of its own with the same times (`NetTraj.line`); what leaves one queue comes to the
  next in the same event (`NetTraj.flow`); with one server the times of departure are the ends of services, in order. The
  limit is that of C134 with the departures from one queue as arrivals at the next.
* C136: whoever should have come or left by `u` but has not would be the next event of its queue. From times to numbers: `rate_of_times`.
* C137: the times of C135 are monotone in the functions; for services that are a function of the time alone they are maxima of iterates
  of the functions, which commute.
* C138: the joint law of the first n services and times between arrivals does not change if they are put in the opposite order, and the
  formula of C133 for the waiting time becomes the largest of the first n excesses, which grows with n.
* C139: the waiting time of an agent is independent of its service and of the next time between arrivals, which gives the equation. If the
  first waiting time has a law that solves it all have this law, and the first waiting time is forgotten: after some agents it has no effect.
* C140: the law of C139 for exponential times, by integration. That `exponential(scale)` has the exponential law with mean `scale` is part of
  what is assumed of numpy.
* C141: the waiting times have the laws of the largest of the first n excesses (C138), which grow with n; the bound compares the squares of
  the waiting times of two agents one after the other.
* C142: what an exponential time leaves of some work has a transform that is linear in two transforms of the work; the limit solves the
  equation this gives, and t tending to 0 gives the chance of no waiting. C143: the equation for t tending to 0, to the second order.
* C144: induction on the agent, the chance integrated over service less time between arrivals; a small theta exists since the slope at 0
  of the mean of exp(theta x) is the mean of x, by dominated convergence.
* C145: C83 says that services start as if each agent went to the server free first; the work left in such a system differs from that of
  one fast server by at most one longest service per server, and a longest service is small against the number of agents.
* C146: between events all services under way end later, so those that should have ended have; the number of departures lies between the
  numbers of agents whose start, and whose start plus the longest service so far, are at most u.
* C147: who left, left strictly before the next arrival, since next_event takes an arrival first if times are equal. So the number left
  behind is that of the arrivals during a stay; these are independent of the stay, whose law is known in the limit (C140).
* C148: the number of exponential times that fit into a time independent of them is Poisson, by induction on their number; the
  generating function is the transform of the stay, which is that of C142 times that of a service.
* C149: the factorial moments of a Poisson number, averaged over the time of stay (C148); no assumption on the load is needed for
  them, and both sides may be infinite. The limit uses the mean waiting time of C143 and so needs `lam * σ < 1` and a second
  moment of the services.
* C150: by C147 "the `n`-th agent leaves `k` behind" and "agent `n + k` finds `k`" are the same event. Its chance grows with `n` as
  the waiting time has the law of a growing largest excess (C141). For equal means see C153.
* C151: C83 with infinitely many servers; the times of exponential arrivals have together the density `lam` (the sum of the densities
  of all of them), so the mean number there at `u` is an integral of the chance of a long service. (C121 has the whole law, for
  arrivals by `poisson_random_measure`.)
* C152: C150 gives the limits of the chances of `k` or more, for both numbers; their differences are the law, and its generating
  function is the limit in C148, by dominated convergence.
* C153: if a waiting time were bounded with a chance above 0, a multiple of the limit would be a law that stays the same from agent to
  agent (C139); its mean change is 0, so the server would never be idle, and then the transform at 1 forces constant times.
* C127: two states of objects in which each type has the same class and arguments give the same network; making a network keeps these.
* C114: the potential of C88 for queues of every class; an agent that deposits a resource or is turned away only lowers it.
* C113: `SReach`: histories of an InfoQueue in which the calls of `queue_action` are listed with the row each finds in `queue.data`. `Doing`: what one
  operation does to the rows, the place and the calls of one agent; `Told`: the calls of an agent are those its rows and their stages call for.
* C109, C110: an operation `initialise` of a running network is allowed in histories if it schedules nothing before the clock; the
  times of next events only fall in it. `Gated`, `Passed`: what one event does with the flag `active`.
* C108: `unifLaw` is the law of the draws as for C96. The draws for the types of edges that are not loops come first, then those for
  loops (lines 309-320 of graph_generation.py); in `generate_random_graph` the places (two draws for each vertex) and the
  draws for the loops (one for each vertex) come before, unless `set_types_random` seeds again.
