# Notes for tools/mkmanifest.py.  PARTIAL: properties whose full statement is false or not proved.
PARTIAL = {
 'C129': 'False: set_vp, set_ep and set_pos write before they raise (C129_raises_after_writing, C129_set_pos_half), and a property of edges with the name of an array of vertices, or the other way round, overwrites the array (C129_wrong_array). Proved: reading, lists of names, vertices and edges for all histories without restriction; exactly when the methods raise and what they leave; the arrays if names are not mixed up and add_edge is given no edge_color (C129_add_edge_color).',
 'C127': 'C127_again_partial: proved for the parameters of queues if vertices have no capacities or adjust_graph=True. False otherwise: capacities and colours are entered in q_args and used again for the next network (C127_capacity_remembered, C127_colours_remembered, finding F51). Without q_args a type other than 0, ..., 4 raises KeyError though q_classes has a class for it (C127_type_without_args, C127_without_args, finding F50).',
 'C122': 'Proved if the keyword nServers is not used and num_servers + qbuffer is positive. False in general: nServers and qbuffer are not checked, such queues serve nobody or admit nobody (C122_no_servers, C122_no_room, C122_servers_not_checked, C122_negative_buffer, finding F47).',
 'C123': 'Proved if all queues made with the same dict have the same default for the colour. False in general: the dict given is itself completed, so a second queue of another class gets the defaults of the first (C123_shared_dict, finding F48); C123_colours says what happens in every case.',
 'C08': 'Proved if the number of servers is never lowered, and for every single event in any history. False in general: lowering and then raising the number of servers oversubscribes (C08_lower_raise_oversubscribes, finding F3). By how much at most: C130.',
 'C14': 'Proved for active_cap >= 1 and no re-activation once the cap is reached; false otherwise (C14_cap_zero, C14_reactivation, finding F4). By how much at most: C131.',
 'C20': 'Proved except for set_num_servers(infty) on a queue with infinitely many servers, which raises TypeError (C20_infty_infty, finding F3).',
 'C36': 'Initial rows proved; after set_transitions proved for arguments that put weight on edges only. False otherwise: C36_weight_off_the_edges (finding F9).',
 'C37': 'Proved for matrices, wrong types and dicts whose first row is bad; in general exactly the rows before the first bad one are written. False in general: C37_not_atomic (finding F9).',
 'C45': 'Proved: every event counted is a real one or an idle one that changes nothing, and a real event comes after finitely many idle ones. False as stated: superseded scheduler entries are counted as events (C45_idle_event, finding F1).',
 'C46': 'Proved when the root of the scheduler is current or it is empty; in general time is the time of some queue or infinity. False as stated: C46_time_wrong (finding F2).',
 'C47': 'Proved whenever some queue has an event scheduled; and Nothing is only said when none has. False as stated when none has: C47_departure_of_nobody (finding F2).',
 'C49': 'Proved when no outside arrival is due at the destination at the same time and the agent does not return to a LossQueue that is over its room (C49_fits: none is unless its servers were lowered). False as stated: C49_lost_in_tie, C49_lost_in_loop (finding F5).',
 'C53': 'Proved for runs in which no two queues have their next event at the same time. False as stated: the copy rebuilds the scheduler, so ties are broken differently (C53_copy_differs_in_tie). The networkx part of copy is not modelled (F13).',
 'C90': 'Proved for graphs whose nodes are in the order 0..n-1, and these are the only ones (C90_right_iff); in general point i is at the position of the i-th node (C90_permuted). False as stated, also for generated graphs: C90_minimal_misplaced (finding F31).',
 'C93': 'Proved: what is computed is pi/180 times the distance on the sphere of the points with coordinates read as radians, and is a metric there; every edge gets it. False as stated: C93_too_short (radians), C93_degrees (degrees) (finding F33). np.round is an arbitrary function, numbers are real.',
 'C61': 'Proved: each edge gets the colour of the queue at its position in g.edges(); this is the queue on the edge exactly for graphs whose edges() come in increasing order (C61_right_iff). False as stated: C61_wrong_colour (finding F12).',
 'C56': 'Proved while some queue has an event scheduled. False as stated: C56_infinite_clock (finding F15).',
 'C67': 'Proved for proper base colours (four components in [0, 1]), coloring_sensitivity >= 0 (> 0 with infinitely many servers), for ResourceQueue non-negative numbers of servers and not both infinite; a ResourceQueue darkens with its servers, not its agents. False otherwise: C67_zero_sensitivity, C67_negative_sensitivity, C67_negative_servers, C67_infinite_resource, C67_three_components (finding F24).',
 'C70': 'Proved: exactly when the AttributeError is raised (C70_raises), and that the queue is like a LossQueue otherwise. False as stated: C70_attribute_error (finding F7).',
 'C71': 'Proved: what is known was true at its time stamp (C71_true), no stamp decreases (C71_newer), and after an arrival strictly before the next departure the queue knows all the agent knew. False as stated: C71_tie; C71_default_net_size raises (finding F25).',
 'C68': 'Proved: exact effect of every event on num_servers, deposits, and that resources are never created. False as stated: C68_visit_takes_two, C68_takes_its_own_server (findings F6, F23).',
 'C80': 'Exact outcome proved (C80_update_all); everything is up to date if every vertex with a loop of type 0 has another edge with a smaller number. False as stated: C80_show_active_stays (finding F29).',
 'C81': 'Proved: same events, nothing raises (base colours of four components, positive sensitivity, finite max_servers of ResourceQueues, NullQueues exactly on type 0, C41 or C99 applies), edges, rims and fill colours always present, except the fill colours of vertices with loops of a type other than 0 if there are several. False as stated: C81_wrong_vertex (finding F19).',
 'C79': 'Proved when nobody who starts service finishes before the next event of the queue. False as stated: C79_clock_runs_back (finding F28).',
 'C109': 'Proved for queues that are active already or whose own clock is that of the network. False as stated: C109_clock_runs_back (finding F42).',
}
NOTES = {
 'C21': 'Proved for QueueServer and LossQueue. NullQueue.clear and ResourceQueue.clear do not reset: C21_null_queue_keeps_data, C21_resource_queue_keeps_servers (findings F8, F6).',
 'C24': 'Proved for QueueServer/LossQueue. A ResourceQueue violates it: C24_resource_queue_stops (finding F6).',
 'C31': 'Also: C31_zero_draw (u = 0 can choose an edge of probability zero, finding F10), C31_single_edge_uninitialised.',
 'C41': 'Finite service times or no self-loops; without this C41_infinite_service_crash (finding F16).',
 'C44': 'max_agents >= 0. With initialize of a running network it can be exceeded: C109_max_agents_exceeded (finding F42).',
 'C54': 'Pairs and lists of pairs. A tuple of edges selects all queues: C54_tuple_of_edges (finding F21).',
 'C66': 'Number of servers from vertex capacities: see C66_servers, C66_first_capacity, C66_capacity_lost (findings F18, F20). q_args is a dict here; for q_args=None and dicts as objects see C127 (F50, F51).',
 'C02': 'Includes counterexamples for the excluded cases (empty construction, pop of an empty queue).',
 'C69': 'over_max counts every setting above max_servers, also those on the way down; with infinitely many servers every setting counts.',
 'C75': 'Also a counterexample to work conservation and FIFO at ResourceQueues: C75_waits_at_idle_server (finding F23).',
 'C63': 'Pairs at exactly the greatest distance may be left out, unlike in the docstring; one point gives a graph without vertices (example, finding F14).',
 'C64': 'isclose and the tolerance of np.random.choice are arbitrary predicates (accepted sums are positive); np.random.choice is modelled by inverse transform sampling.',
 'C87': 'Finite services and retry times, at least one server; blocked agents retry strictly later than the departure they wait for (true of EPS * uniform(0.33, 0.66) in exact arithmetic; needed, see C115_starves, finding F30), services under RS do not all take zero time (C87_rs_zero_service_stuck).',
 'C88': 'Services that take no time can make it endless under RS: C88_rs_zero_service_endless (finding F30).',
 'C89': 'For vertices 0..n-1 in any order; edges added later need new positions and colours (C89_new_vertex_fails, C89_new_edge_fails, finding F32). Ends at the arrays passed to matplotlib.',
 'C92': 'For QueueServers, LossQueues and NullQueues with finite services; for generate_random_graph some proportion of a type other than 0 must be used, otherwise initialize raises (C50).',
 'C94': 'Fill colours and lines; rim colours only as a KeyError of show_type (C94_show_type_when). The colours are put back by _update_all_colors (C80).',
 'C95': 'Real arithmetic; the draws are independent, exponential(scale) is scale times a standard exponential, uniform() is uniform on [0, 1). C95_capped gives the law for every measurable rate: the rate is cut off at 0 and rate_max.',
 'C65': 'For ceil(V*pType2) >= 1; C65_zero says what happens otherwise (finding F26). Ties in rank can give more vertices: C65_how_many.',
 'C96': 'Real draws; the other random input is fixed but arbitrary, so these are conditional probabilities given it. The out-edges of a vertex are distinct, their probabilities are not negative and have sum 1.',
 'C97': 'States what the code does; the docstring of blocking says otherwise: C97_gives_up_bas, C97_gives_up_rs (finding F37).',
 'C99': 'With a queue that is an out-edge of its own target the claim fails: C99_resource_loop_crash (finding F38); C99_only_error says what can happen then.',
 'C101': 'Resources can be lost (F6, C68), so equality is false.',
 'C102': 'States what the code does (F6): other classes continue the stream at every arrival.',
 'C103': 'States what the code does; C103_locked_out is the deadlock (finding F39).',
 'C104': 'networkx 2 and later, whose copy() is self.__class__() followed by add_nodes_from and add_edges_from (finding F13). States what the code does.',
 'C106': 'States what the code does; C106_line_miscounted shows a row that says nobody waits though the agent itself does (finding F40).',
 'C107': 'QueueServer and LossQueue; simulate with a default n is a for loop and ends trivially. C107_t_endless, C107_nD_endless are the counterexamples without the hypotheses (finding F41).',
 'C108': 'Real draws. np.random.choice is inverse transform sampling of one uniform draw per edge, in the order of the edges; accepted sums are positive. C108_seeded: with a seed each type is decided by a coordinate of a vertex (finding F27).',
 'C110': 'States what the code does; the docstring only says that max_agents is the maximum number of agents in the network at any time (finding F43).',
 'C117': 'A queue by itself; an agent is in the queue at most once and none is scheduled twice (DataOk). C117_stopped_during_visit and C117_started_during_visit show the wrong rows (finding F45).',
 'C116': 'The statistics of InfoAgents, which are read from data, are not part of these states (see C113).',
 'C115': 'States what the code does (finding F30). The rounding is the function jit of the model, here the identity.',
 'C114': 'TypeError as in C99_resource_loop_crash (finding F38); services that take no time can make it endless (C88_rs_zero_service_endless).',
 'C113': 'States what the code does; C113_wrong_total, C113_not_waited show that this is not the time waited (finding F44). The array is int32: adding to it is an arbitrary function in C113_stats (it truncates), exact in C113_exact.',
 'C111': 'Real draws, as for C96. GreedyAgents are not counted. The limit speaks of runs in which decisions at the vertex go on for ever; the example shows a network in which they do, whatever the draws.',
 'C112': 'Real times; draws as for C95. The agents that came from outside are the history variable created of the model, written where the code makes an agent with its id and arrival time. The network may depend on the draws of the queue in any way. If the rate has a finite integral, a call of poisson_random_measure never returns with positive probability (C95).',
 'C118': 'Real times; draws as for C95, those of different queues independent (C119 derives this for one generator). The network may depend on all the draws in any way.',
 'C119': 'About the numbers of the generator, an idealisation: independent, with any law. The rule says who draws next given the list of numbers so far. C119_poisson speaks of pairs of an exponential and a uniform draw, as C95 does.',
 'C120': 'States what the code does (finding F46). matplotlib is taken to call update once for each frame; the drawing itself is not modelled. The colours as in C81, with its hypotheses.',
 'C124': 'The graph is a graph: each queue is an out-edge of the vertex it begins at, once (Graphic). The counters of ResourceQueues do not tell who came: C124_resource_uncounted.',
 'C128': 'str.lower is modelled for A-Z; no other character has r or s as its lower case.',
 'C125': 'Says what is true (finding F49): EPS makes the unit matter with BAS. Rounding of floats is not invariant; the scale is any strictly increasing map, the functions of the second network are the translated ones.',
 'C126': 'The indices into the new memory are modelled (they stay below size); what a read outside the arrays would do is not.',
 'C121': 'Real times; draws as for C95, services independent of them. The network may otherwise depend on the draws in any way. C121_path is deterministic and needs no law.',
}
