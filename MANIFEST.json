{
 "claims": [
  {
   "property": "C01",
   "status": "proved",
   "theorems": [
    "Verif.PQSpec.C01_pop_returns_earliest_live"
   ],
   "note": ""
  },
  {
   "property": "C02",
   "status": "proved",
   "theorems": [
    "Verif.PQSpec.C02_memory_safe",
    "Verif.PQSpec.C02_empty_construction_unsafe",
    "Verif.PQSpec.C02_pop_empty_unsafe"
   ],
   "note": "Includes counterexamples for the excluded cases (empty construction, pop of an empty queue)."
  },
  {
   "property": "C03",
   "status": "proved",
   "theorems": [
    "Verif.PQSpec.C03_none_iff_nothing_live"
   ],
   "note": ""
  },
  {
   "property": "C04",
   "status": "proved",
   "theorems": [
    "Verif.HeapSpec.C04_heappush",
    "Verif.HeapSpec.C04_heappop",
    "Verif.HeapSpec.C04_heapify",
    "Verif.HeapSpec.C04_drain_sorted"
   ],
   "note": ""
  },
  {
   "property": "C05",
   "status": "proved",
   "theorems": [
    "Verif.QueueSpec.C05_census"
   ],
   "note": ""
  },
  {
   "property": "C06",
   "status": "proved",
   "theorems": [
    "Verif.QueueSpec.C06_total_census"
   ],
   "note": ""
  },
  {
   "property": "C07",
   "status": "proved",
   "theorems": [
    "Verif.QueueSpec.C07_work_conserving"
   ],
   "note": ""
  },
  {
   "property": "C08",
   "status": "partial",
   "theorems": [
    "Verif.QueueSpec.C08_not_oversubscribed_partial",
    "Verif.QueueSpec.C08_event_respects_servers_partial",
    "Verif.QueueSpec.C08_lower_raise_oversubscribes"
   ],
   "note": "Proved if the number of servers is never lowered, and for every single event in any history. False in general: lowering and then raising the number of servers oversubscribes (C08_lower_raise_oversubscribes, finding F3). By how much at most: C130."
  },
  {
   "property": "C09",
   "status": "proved",
   "theorems": [
    "Verif.QueueSpec.C09_fcfs"
   ],
   "note": ""
  },
  {
   "property": "C10",
   "status": "proved",
   "theorems": [
    "Verif.QueueSpec.C10_served_once",
    "Verif.QueueSpec.C10_departure_logged"
   ],
   "note": ""
  },
  {
   "property": "C11",
   "status": "proved",
   "theorems": [
    "Verif.QueueSpec.C11_clock"
   ],
   "note": ""
  },
  {
   "property": "C12",
   "status": "proved",
   "theorems": [
    "Verif.QueueSpec.C12_time_next_event"
   ],
   "note": ""
  },
  {
   "property": "C13",
   "status": "proved",
   "theorems": [
    "Verif.QueueSpec.C13_description"
   ],
   "note": ""
  },
  {
   "property": "C14",
   "status": "partial",
   "theorems": [
    "Verif.QueueSpec.C14_active_cap_partial",
    "Verif.QueueSpec.C14_cap_zero",
    "Verif.QueueSpec.C14_reactivation"
   ],
   "note": "Proved for active_cap >= 1 and no re-activation once the cap is reached; false otherwise (C14_cap_zero, C14_reactivation, finding F4). By how much at most: C131."
  },
  {
   "property": "C15",
   "status": "proved",
   "theorems": [
    "Verif.QueueSpec.C15_deactive_t"
   ],
   "note": ""
  },
  {
   "property": "C16",
   "status": "proved",
   "theorems": [
    "Verif.QueueSpec.C16_ids"
   ],
   "note": ""
  },
  {
   "property": "C17",
   "status": "proved",
   "theorems": [
    "Verif.QueueSpec.C17_simulate_n"
   ],
   "note": ""
  },
  {
   "property": "C18",
   "status": "proved",
   "theorems": [
    "Verif.QueueSpec.C18_simulate_t",
    "Verif.QueueSpec.C18_simulate_nD",
    "Verif.QueueSpec.C18_simulate_nA"
   ],
   "note": ""
  },
  {
   "property": "C19",
   "status": "proved",
   "theorems": [
    "Verif.QueueSpec.C19_delay_service",
    "Verif.QueueSpec.C19_delay_service_ok"
   ],
   "note": ""
  },
  {
   "property": "C20",
   "status": "partial",
   "theorems": [
    "Verif.QueueSpec.C20_set_num_servers_partial",
    "Verif.QueueSpec.C20_infty_infty"
   ],
   "note": "Proved except for set_num_servers(infty) on a queue with infinitely many servers, which raises TypeError (C20_infty_infty, finding F3)."
  },
  {
   "property": "C21",
   "status": "proved",
   "theorems": [
    "Verif.QueueSpec.C21_clear_state",
    "Verif.QueueSpec.C21_clear_behaviour",
    "Verif.QueueSpec.C21_null_queue_keeps_data",
    "Verif.QueueSpec.C21_resource_queue_keeps_servers"
   ],
   "note": "Proved for QueueServer and LossQueue. NullQueue.clear and ResourceQueue.clear do not reset: C21_null_queue_keeps_data, C21_resource_queue_keeps_servers (findings F8, F6)."
  },
  {
   "property": "C22",
   "status": "proved",
   "theorems": [
    "Verif.QueueSpec.C22_capacity"
   ],
   "note": ""
  },
  {
   "property": "C23",
   "status": "proved",
   "theorems": [
    "Verif.QueueSpec.C23_blocked_iff_full"
   ],
   "note": ""
  },
  {
   "property": "C24",
   "status": "proved",
   "theorems": [
    "Verif.QueueSpec.C24_blocked_keeps_stream",
    "Verif.QueueSpec.C24_stream_alive",
    "Verif.QueueSpec.C24_resource_queue_stops"
   ],
   "note": "Proved for QueueServer/LossQueue. A ResourceQueue violates it: C24_resource_queue_stops (finding F6)."
  },
  {
   "property": "C25",
   "status": "proved",
   "theorems": [
    "Verif.QueueSpec.C25_null_queue",
    "Verif.QueueSpec.C25_null_queue_rows"
   ],
   "note": ""
  },
  {
   "property": "C26",
   "status": "proved",
   "theorems": [
    "Verif.QueueSpec.C26_rows_consistent",
    "Verif.QueueSpec.C26_arrival_row"
   ],
   "note": ""
  },
  {
   "property": "C27",
   "status": "proved",
   "theorems": [
    "Verif.QueueSpec.C27_rows_count",
    "Verif.QueueSpec.C27_rows_count_alone"
   ],
   "note": ""
  },
  {
   "property": "C28",
   "status": "proved",
   "theorems": [
    "Verif.QueueSpec.C28_fetch_data",
    "Verif.QueueSpec.C28_fetch_data_unique",
    "Verif.QueueSpec.C28_rows_of_agents"
   ],
   "note": ""
  },
  {
   "property": "C29",
   "status": "proved",
   "theorems": [
    "Verif.QueueSpec.C29_one_own_arrival"
   ],
   "note": ""
  },
  {
   "property": "C30",
   "status": "proved",
   "theorems": [
    "Verif.QueueSpec.C30_first_accepted",
    "Verif.QueueSpec.C30_terminates_iff",
    "Verif.QueueSpec.C30_not_before"
   ],
   "note": ""
  },
  {
   "property": "C31",
   "status": "proved",
   "theorems": [
    "Verif.RoutingSpec.C31_least_index",
    "Verif.RoutingSpec.C31_single_edge_uninitialised",
    "Verif.RoutingSpec.C31_interval",
    "Verif.RoutingSpec.C31_zero_never_chosen",
    "Verif.RoutingSpec.C31_zero_draw",
    "Verif.RoutingSpec.C31_distribution"
   ],
   "note": "Also: C31_zero_draw (u = 0 can choose an edge of probability zero, finding F10), C31_single_edge_uninitialised."
  },
  {
   "property": "C32",
   "status": "proved",
   "theorems": [
    "Verif.RoutingSpec.C32_destination_is_out_edge",
    "Verif.RoutingSpec.C32_single_out_edge",
    "Verif.RoutingSpec.C32_greedy_destination_is_out_edge"
   ],
   "note": ""
  },
  {
   "property": "C33",
   "status": "proved",
   "theorems": [
    "Verif.RoutingSpec.C33_first_shortest_line"
   ],
   "note": ""
  },
  {
   "property": "C34",
   "status": "proved",
   "theorems": [
    "Verif.RoutingSpec.C34_dict",
    "Verif.RoutingSpec.C34_matrix",
    "Verif.RoutingSpec.C34_other"
   ],
   "note": ""
  },
  {
   "property": "C35",
   "status": "proved",
   "theorems": [
    "Verif.RoutingSpec.C35_matrix",
    "Verif.RoutingSpec.C35_dict",
    "Verif.RoutingSpec.C35_unmentioned"
   ],
   "note": ""
  },
  {
   "property": "C36",
   "status": "partial",
   "theorems": [
    "Verif.RoutingSpec.C36_partial",
    "Verif.RoutingSpec.C36_initial",
    "Verif.RoutingSpec.C36_weight_off_the_edges"
   ],
   "note": "Initial rows proved; after set_transitions proved for arguments that put weight on edges only. False otherwise: C36_weight_off_the_edges (finding F9)."
  },
  {
   "property": "C37",
   "status": "partial",
   "theorems": [
    "Verif.RoutingSpec.C37_partial",
    "Verif.RoutingSpec.C37_not_atomic"
   ],
   "note": "Proved for matrices, wrong types and dicts whose first row is bad; in general exactly the rows before the first bad one are written. False in general: C37_not_atomic (finding F9)."
  },
  {
   "property": "C38",
   "status": "proved",
   "theorems": [
    "Verif.RoutingSpec.C38_row_stochastic",
    "Verif.RoutingSpec.C38_accepted"
   ],
   "note": ""
  },
  {
   "property": "C39",
   "status": "proved",
   "theorems": [
    "Verif.NetSpec.C39_events_in_time_order"
   ],
   "note": ""
  },
  {
   "property": "C40",
   "status": "proved",
   "theorems": [
    "Verif.NetSpec.C40_clock_monotone"
   ],
   "note": ""
  },
  {
   "property": "C41",
   "status": "proved",
   "theorems": [
    "Verif.NetSpec.C41_never_crashes",
    "Verif.NetSpec.C41_never_crashes_until",
    "Verif.NetSpec.C41_infinite_service_crash"
   ],
   "note": "Finite service times or no self-loops; without this C41_infinite_service_crash (finding F16)."
  },
  {
   "property": "C42",
   "status": "proved",
   "theorems": [
    "Verif.NetSpec.C42_num_agents"
   ],
   "note": ""
  },
  {
   "property": "C43",
   "status": "proved",
   "theorems": [
    "Verif.NetSpec.C43_agents_conserved"
   ],
   "note": ""
  },
  {
   "property": "C44",
   "status": "proved",
   "theorems": [
    "Verif.NetSpec.C44_max_agents_step",
    "Verif.NetSpec.C44_max_agents"
   ],
   "note": "max_agents >= 0. With initialize of a running network it can be exceeded: C109_max_agents_exceeded (finding F42)."
  },
  {
   "property": "C45",
   "status": "partial",
   "theorems": [
    "Verif.NetSpec.C45_any_events_partial",
    "Verif.NetSpec.C45_any_progress_partial",
    "Verif.NetSpec.C45_events_partial",
    "Verif.NetSpec.C45_progress_partial",
    "Verif.NetSpec.C45_idle_event"
   ],
   "note": "Proved: every event counted is a real one or an idle one that changes nothing, and a real event comes after finitely many idle ones. False as stated: superseded scheduler entries are counted as events (C45_idle_event, finding F1)."
  },
  {
   "property": "C46",
   "status": "partial",
   "theorems": [
    "Verif.NetSpec.C46_time_partial",
    "Verif.NetSpec.C46_time_wrong"
   ],
   "note": "Proved when the root of the scheduler is current or it is empty; in general time is the time of some queue or infinity. False as stated: C46_time_wrong (finding F2)."
  },
  {
   "property": "C47",
   "status": "partial",
   "theorems": [
    "Verif.NetSpec.C47_description_partial",
    "Verif.NetSpec.C47_departure_of_nobody"
   ],
   "note": "Proved whenever some queue has an event scheduled; and Nothing is only said when none has. False as stated when none has: C47_departure_of_nobody (finding F2)."
  },
  {
   "property": "C48",
   "status": "proved",
   "theorems": [
    "Verif.NetSpec.C48_blocking",
    "Verif.NetSpec.C48_blocked_only_if_full"
   ],
   "note": ""
  },
  {
   "property": "C49",
   "status": "partial",
   "theorems": [
    "Verif.NetSpec.C49_admitted_partial",
    "Verif.NetSpec.C49_lost_on_arrival_partial",
    "Verif.NetSpec.C49_fits",
    "Verif.NetSpec.C49_lost_in_tie",
    "Verif.NetSpec.C49_lost_in_loop"
   ],
   "note": "Proved when no outside arrival is due at the destination at the same time and the agent does not return to a LossQueue that is over its room (C49_fits: none is unless its servers were lowered). False as stated: C49_lost_in_tie, C49_lost_in_loop (finding F5)."
  },
  {
   "property": "C50",
   "status": "proved",
   "theorems": [
    "Verif.NetSpec.C50_initialize",
    "Verif.NetSpec.C50_initialize_nActive",
    "Verif.NetSpec.C50_initialize_errors"
   ],
   "note": ""
  },
  {
   "property": "C51",
   "status": "proved",
   "theorems": [
    "Verif.NetSpec.C51_simulate_requires_initialize",
    "Verif.NetSpec.C51_only_before_initialize"
   ],
   "note": ""
  },
  {
   "property": "C52",
   "status": "proved",
   "theorems": [
    "Verif.NetSpec.C52_clear"
   ],
   "note": ""
  },
  {
   "property": "C53",
   "status": "partial",
   "theorems": [
    "Verif.NetSpec.C53_copy_partial",
    "Verif.NetSpec.C53_copy_differs_in_tie"
   ],
   "note": "Proved for runs in which no two queues have their next event at the same time. False as stated: the copy rebuilds the scheduler, so ties are broken differently (C53_copy_differs_in_tie). The networkx part of copy is not modelled (F13)."
  },
  {
   "property": "C54",
   "status": "proved",
   "theorems": [
    "Verif.C54_by_number",
    "Verif.C54_by_edge",
    "Verif.C54_by_edges",
    "Verif.C54_by_type",
    "Verif.C54_all",
    "Verif.C54_no_edges",
    "Verif.C54_tuple_of_edges"
   ],
   "note": "Pairs and lists of pairs. A tuple of edges selects all queues: C54_tuple_of_edges (finding F21)."
  },
  {
   "property": "C55",
   "status": "proved",
   "theorems": [
    "Verif.C55_queue_data",
    "Verif.C55_agent_data",
    "Verif.C55_views_agree",
    "Verif.C55_clear_data",
    "Verif.C55_collecting"
   ],
   "note": ""
  },
  {
   "property": "C56",
   "status": "partial",
   "theorems": [
    "Verif.NetSpec.C56_finite_clock_partial",
    "Verif.NetSpec.C56_infinite_clock"
   ],
   "note": "Proved while some queue has an event scheduled. False as stated: C56_infinite_clock (finding F15)."
  },
  {
   "property": "C57",
   "status": "proved",
   "theorems": [
    "Verif.C57_edge_index",
    "Verif.C57_add_edge",
    "Verif.C57_increasing"
   ],
   "note": ""
  },
  {
   "property": "C58",
   "status": "proved",
   "theorems": [
    "Verif.C58_adjust_one",
    "Verif.C58_when_ok",
    "Verif.C58_error",
    "Verif.C58_matrix_type_zero"
   ],
   "note": ""
  },
  {
   "property": "C59",
   "status": "proved",
   "theorems": [
    "Verif.C59_adjust_two"
   ],
   "note": ""
  },
  {
   "property": "C60",
   "status": "proved",
   "theorems": [
    "Verif.C60_matrix",
    "Verif.C60_forms_agree",
    "Verif.C60_graph2dict",
    "Verif.C60_graph2lists"
   ],
   "note": ""
  },
  {
   "property": "C61",
   "status": "partial",
   "theorems": [
    "Verif.C61_colours_partial",
    "Verif.C61_right_iff",
    "Verif.C61_wrong_colour"
   ],
   "note": "Proved: each edge gets the colour of the queue at its position in g.edges(); this is the queue on the edge exactly for graphs whose edges() come in increasing order (C61_right_iff). False as stated: C61_wrong_colour (finding F12)."
  },
  {
   "property": "C62",
   "status": "proved",
   "theorems": [
    "Verif.UFSpec.C62_find",
    "Verif.UFSpec.C62_total",
    "Verif.UFSpec.C62_size",
    "Verif.UFSpec.C62_nClusters"
   ],
   "note": ""
  },
  {
   "property": "C63",
   "status": "proved",
   "theorems": [
    "Verif.GenSpec.C63_minimal",
    "Verif.GenSpec.C63_radius"
   ],
   "note": "Pairs at exactly the greatest distance may be left out, unlike in the docstring; one point gives a graph without vertices (example, finding F14)."
  },
  {
   "property": "C64",
   "status": "proved",
   "theorems": [
    "Verif.GenSpec.C64_accepted",
    "Verif.GenSpec.C64_rejected",
    "Verif.GenSpec.C64_types"
   ],
   "note": "isclose and the tolerance of np.random.choice are arbitrary predicates (accepted sums are positive); np.random.choice is modelled by inverse transform sampling."
  },
  {
   "property": "C65",
   "status": "proved",
   "theorems": [
    "Verif.GenSpec.C65_rank",
    "Verif.GenSpec.C65_when",
    "Verif.GenSpec.C65_how_many",
    "Verif.GenSpec.C65_zero"
   ],
   "note": "For ceil(V*pType2) >= 1; C65_zero says what happens otherwise (finding F26). Ties in rank can give more vertices: C65_how_many."
  },
  {
   "property": "C66",
   "status": "proved",
   "theorems": [
    "Verif.C66_queues",
    "Verif.C66_servers",
    "Verif.C66_when_ok",
    "Verif.C66_errors",
    "Verif.C66_first_capacity",
    "Verif.C66_capacity_lost"
   ],
   "note": "Number of servers from vertex capacities: see C66_servers, C66_first_capacity, C66_capacity_lost (findings F18, F20). q_args is a dict here; for q_args=None and dicts as objects see C127 (F50, F51)."
  },
  {
   "property": "C67",
   "status": "partial",
   "theorems": [
    "Verif.ColourSpec.C67_range_partial",
    "Verif.ColourSpec.C67_darker_partial",
    "Verif.ColourSpec.C67_strictly_darker",
    "Verif.ColourSpec.C67_resource_partial",
    "Verif.ColourSpec.C67_resource_darker_partial",
    "Verif.ColourSpec.C67_null",
    "Verif.ColourSpec.C67_vertex",
    "Verif.ColourSpec.C67_zero_sensitivity",
    "Verif.ColourSpec.C67_negative_sensitivity",
    "Verif.ColourSpec.C67_negative_servers",
    "Verif.ColourSpec.C67_infinite_resource",
    "Verif.ColourSpec.C67_exact",
    "Verif.ColourSpec.C67_short_colour",
    "Verif.ColourSpec.C67_three_components"
   ],
   "note": "Proved for proper base colours (four components in [0, 1]), coloring_sensitivity >= 0 (> 0 with infinitely many servers), for ResourceQueue non-negative numbers of servers and not both infinite; a ResourceQueue darkens with its servers, not its agents. False otherwise: C67_zero_sensitivity, C67_negative_sensitivity, C67_negative_servers, C67_infinite_resource, C67_three_components (finding F24)."
  },
  {
   "property": "C68",
   "status": "partial",
   "theorems": [
    "Verif.ResourceSpec.C68_servers_partial",
    "Verif.ResourceSpec.C68_deposit_partial",
    "Verif.ResourceSpec.C68_never_created_partial",
    "Verif.ResourceSpec.C68_visit_takes_two",
    "Verif.ResourceSpec.C68_takes_its_own_server"
   ],
   "note": "Proved: exact effect of every event on num_servers, deposits, and that resources are never created. False as stated: C68_visit_takes_two, C68_takes_its_own_server (findings F6, F23)."
  },
  {
   "property": "C69",
   "status": "proved",
   "theorems": [
    "Verif.ResourceSpec.C69_over_max",
    "Verif.ResourceSpec.C69_other_calls",
    "Verif.ResourceSpec.C69_over_max_infinite",
    "Verif.ResourceSpec.C69_nonneg"
   ],
   "note": "over_max counts every setting above max_servers, also those on the way down; with infinitely many servers every setting counts."
  },
  {
   "property": "C70",
   "status": "partial",
   "theorems": [
    "Verif.InfoSpec.C70_raises",
    "Verif.InfoSpec.C70_otherwise_partial",
    "Verif.InfoSpec.C70_refines_partial",
    "Verif.InfoSpec.C70_attribute_error"
   ],
   "note": "Proved: exactly when the AttributeError is raised (C70_raises), and that the queue is like a LossQueue otherwise. False as stated: C70_attribute_error (finding F7)."
  },
  {
   "property": "C71",
   "status": "partial",
   "theorems": [
    "Verif.InfoSpec.C71_cannot_lose",
    "Verif.InfoSpec.C71_cannot_act",
    "Verif.InfoSpec.C71_lost_knows",
    "Verif.InfoSpec.C71_true",
    "Verif.InfoSpec.C71_newer",
    "Verif.InfoSpec.C71_arrival_partial",
    "Verif.InfoSpec.C71_other_size",
    "Verif.InfoSpec.C71_tie",
    "Verif.InfoSpec.C71_default_net_size",
    "Verif.InfoSpec.C71_mixed_sizes"
   ],
   "note": "Proved: what is known was true at its time stamp (C71_true), no stamp decreases (C71_newer), and after an arrival strictly before the next departure the queue knows all the agent knew. False as stated: C71_tie; C71_default_net_size raises (finding F25)."
  },
  {
   "property": "C72",
   "status": "proved",
   "theorems": [
    "Verif.NetSpec.C72_ids_distinct",
    "Verif.NetSpec.C72_ids_not_reused"
   ],
   "note": ""
  },
  {
   "property": "C73",
   "status": "proved",
   "theorems": [
    "Verif.C73_out_edges",
    "Verif.C73_in_edges",
    "Verif.C73_network_okA",
    "Verif.C73_network_ok"
   ],
   "note": ""
  },
  {
   "property": "C74",
   "status": "proved",
   "theorems": [
    "Verif.NetSpec.C74_travel",
    "Verif.NetSpec.C74_held_back",
    "Verif.NetSpec.C74_path"
   ],
   "note": ""
  },
  {
   "property": "C75",
   "status": "proved",
   "theorems": [
    "Verif.ResourceSpec.C75_census",
    "Verif.ResourceSpec.C75_no_error",
    "Verif.ResourceSpec.C75_waits_at_idle_server"
   ],
   "note": "Also a counterexample to work conservation and FIFO at ResourceQueues: C75_waits_at_idle_server (finding F23)."
  },
  {
   "property": "C76",
   "status": "proved",
   "theorems": [
    "Verif.GenSpec.C76_random_graph",
    "Verif.GenSpec.C76_when"
   ],
   "note": ""
  },
  {
   "property": "C77",
   "status": "proved",
   "theorems": [
    "Verif.GenSpec.C77_pagerank_graph"
   ],
   "note": ""
  },
  {
   "property": "C78",
   "status": "proved",
   "theorems": [
    "Verif.NetSpec.C78_history",
    "Verif.NetSpec.C78_census",
    "Verif.NetSpec.C78_service",
    "Verif.NetSpec.C78_limits",
    "Verif.NetSpec.C78_servers"
   ],
   "note": ""
  },
  {
   "property": "C79",
   "status": "partial",
   "theorems": [
    "Verif.NetSpec.C79_set_num_servers_partial",
    "Verif.NetSpec.C79_clock_runs_back"
   ],
   "note": "Proved when nobody who starts service finishes before the next event of the queue. False as stated: C79_clock_runs_back (finding F28)."
  },
  {
   "property": "C80",
   "status": "partial",
   "theorems": [
    "Verif.ColourSpec.C80_update_all",
    "Verif.ColourSpec.C80_never_raises",
    "Verif.ColourSpec.C80_show_active",
    "Verif.ColourSpec.C80_current_partial",
    "Verif.ColourSpec.C80_show_active_stays"
   ],
   "note": "Exact outcome proved (C80_update_all); everything is up to date if every vertex with a loop of type 0 has another edge with a smaller number. False as stated: C80_show_active_stays (finding F29)."
  },
  {
   "property": "C81",
   "status": "partial",
   "theorems": [
    "Verif.ColourSpec.C81_same_event",
    "Verif.ColourSpec.C81_animation_partial",
    "Verif.ColourSpec.C81_wrong_vertex"
   ],
   "note": "Proved: same events, nothing raises (base colours of four components, positive sensitivity, finite max_servers of ResourceQueues, NullQueues exactly on type 0, C41 or C99 applies), edges, rims and fill colours always present, except the fill colours of vertices with loops of a type other than 0 if there are several. False as stated: C81_wrong_vertex (finding F19)."
  },
  {
   "property": "C82",
   "status": "proved",
   "theorems": [
    "Verif.QueueSpec.C82_little",
    "Verif.QueueSpec.C82_little_queue",
    "Verif.QueueSpec.C82_little_servers",
    "Verif.QueueSpec.C82_little_empty",
    "Verif.QueueSpec.C82_l_eq_lambda_w"
   ],
   "note": ""
  },
  {
   "property": "C83",
   "status": "proved",
   "theorems": [
    "Verif.QueueSpec.C83_start_times",
    "Verif.QueueSpec.C83_stamps_log",
    "Verif.QueueSpec.C83_lindley",
    "Verif.QueueSpec.C83_infinite_servers"
   ],
   "note": ""
  },
  {
   "property": "C84",
   "status": "proved",
   "theorems": [
    "Verif.QueueSpec.C84_comparison"
   ],
   "note": ""
  },
  {
   "property": "C85",
   "status": "proved",
   "theorems": [
    "Verif.NetSpec.C85_journeys",
    "Verif.NetSpec.C85_total_time",
    "Verif.NetSpec.C85_clear_mixes"
   ],
   "note": ""
  },
  {
   "property": "C86",
   "status": "proved",
   "theorems": [
    "Verif.NetSpec.C86_little",
    "Verif.NetSpec.C86_little_queue",
    "Verif.NetSpec.C86_little_servers",
    "Verif.NetSpec.C86_little_empty",
    "Verif.NetSpec.C86_rows"
   ],
   "note": ""
  },
  {
   "property": "C87",
   "status": "proved",
   "theorems": [
    "Verif.NetSpec.C87_runs_empty",
    "Verif.NetSpec.C87_nobody_left",
    "Verif.NetSpec.C87_closed_never_empty",
    "Verif.NetSpec.C87_rs_zero_service_stuck"
   ],
   "note": "Finite services and retry times, at least one server; blocked agents retry strictly later than the departure they wait for (true of EPS * uniform(0.33, 0.66) in exact arithmetic; needed, see C115_starves, finding F30), services under RS do not all take zero time (C87_rs_zero_service_stuck)."
  },
  {
   "property": "C88",
   "status": "proved",
   "theorems": [
    "Verif.NetSpec.C88_until_ends",
    "Verif.NetSpec.C88_simulate_ends",
    "Verif.NetSpec.C88_pace_of_step",
    "Verif.NetSpec.C88_rs_zero_service_endless"
   ],
   "note": "Services that take no time can make it endless under RS: C88_rs_zero_service_endless (finding F30)."
  },
  {
   "property": "C89",
   "status": "proved",
   "theorems": [
    "Verif.C89_drawing",
    "Verif.C89_when",
    "Verif.C89_edge_colour",
    "Verif.C89_vertex_colour",
    "Verif.C89_write_errors",
    "Verif.C89_new_vertex_fails",
    "Verif.C89_new_edge_fails"
   ],
   "note": "For vertices 0..n-1 in any order; edges added later need new positions and colours (C89_new_vertex_fails, C89_new_edge_fails, finding F32). Ends at the arrays passed to matplotlib."
  },
  {
   "property": "C90",
   "status": "partial",
   "theorems": [
    "Verif.C90_place_partial",
    "Verif.C90_permuted",
    "Verif.C90_right_iff",
    "Verif.C90_minimal_misplaced",
    "Verif.C90_new_positions"
   ],
   "note": "Proved for graphs whose nodes are in the order 0..n-1, and these are the only ones (C90_right_iff); in general point i is at the position of the i-th node (C90_permuted). False as stated, also for generated graphs: C90_minimal_misplaced (finding F31)."
  },
  {
   "property": "C91",
   "status": "proved",
   "theorems": [
    "Verif.C91_get_edge_type",
    "Verif.C91_set_type",
    "Verif.C91_no_edge",
    "Verif.C91_out_neighbours"
   ],
   "note": ""
  },
  {
   "property": "C92",
   "status": "proved",
   "theorems": [
    "Verif.C92_network_made",
    "Verif.C92_runs",
    "Verif.C92_pagerank",
    "Verif.C92_random",
    "Verif.C92_pagerank_runs"
   ],
   "note": "For QueueServers, LossQueues and NullQueues with finite services; for generate_random_graph some proportion of a type other than 0 must be used, otherwise initialize raises (C50)."
  },
  {
   "property": "C93",
   "status": "partial",
   "theorems": [
    "Verif.EarthSpec.C93_distance_partial",
    "Verif.EarthSpec.C93_metric",
    "Verif.EarthSpec.C93_too_short",
    "Verif.EarthSpec.C93_degrees",
    "Verif.EarthSpec.C93_edge_lengths",
    "Verif.EarthSpec.C93_when",
    "Verif.EarthSpec.C93_both_ways",
    "Verif.EarthSpec.C93_met"
   ],
   "note": "Proved: what is computed is pi/180 times the distance on the sphere of the points with coordinates read as radians, and is a metric there; every edge gets it. False as stated: C93_too_short (radians), C93_degrees (degrees) (finding F33). np.round is an arbitrary function, numbers are real."
  },
  {
   "property": "C94",
   "status": "proved",
   "theorems": [
    "Verif.C94_show_type",
    "Verif.C94_show_type_when",
    "Verif.C94_show_active",
    "Verif.C94_show_active_when",
    "Verif.C94_met"
   ],
   "note": "Fill colours and lines; rim colours only as a KeyError of show_type (C94_show_type_when). The colours are put back by _update_all_colors (C80)."
  },
  {
   "property": "C95",
   "status": "proved",
   "theorems": [
    "Verif.ThinSpec.C95_poisson",
    "Verif.ThinSpec.C95_count",
    "Verif.ThinSpec.C95_next",
    "Verif.ThinSpec.C95_never",
    "Verif.ThinSpec.C95_ends_iff",
    "Verif.ThinSpec.C95_hangs",
    "Verif.ThinSpec.C95_capped",
    "Verif.ThinSpec.C95_met",
    "Verif.ThinSpec.C95_hang_met",
    "Verif.ThinSpec.C95_capped_met"
   ],
   "note": "Real arithmetic; the draws are independent, exponential(scale) is scale times a standard exponential, uniform() is uniform on [0, 1). C95_capped gives the law for every measurable rate: the rate is cut off at 0 and rate_max."
  },
  {
   "property": "C96",
   "status": "proved",
   "theorems": [
    "Verif.NetSpec.C96_next",
    "Verif.NetSpec.C96_journey",
    "Verif.NetSpec.C96_product_le",
    "Verif.NetSpec.C96_product"
   ],
   "note": "Real draws; the other random input is fixed but arbitrary, so these are conditional probabilities given it. The out-edges of a vertex are distinct, their probabilities are not negative and have sum 1."
  },
  {
   "property": "C97",
   "status": "proved",
   "theorems": [
    "Verif.NetSpec.C97_anew",
    "Verif.NetSpec.C97_one_way",
    "Verif.NetSpec.C97_gives_up_bas",
    "Verif.NetSpec.C97_gives_up_rs"
   ],
   "note": "States what the code does; the docstring of blocking says otherwise: C97_gives_up_bas, C97_gives_up_rs (finding F37)."
  },
  {
   "property": "C98",
   "status": "proved",
   "theorems": [
    "Verif.NetSpec.C98_events_in_time_order",
    "Verif.NetSpec.C98_clock_monotone"
   ],
   "note": ""
  },
  {
   "property": "C99",
   "status": "proved",
   "theorems": [
    "Verif.NetSpec.C99_never_crashes",
    "Verif.NetSpec.C99_never_crashes_until",
    "Verif.NetSpec.C99_only_error",
    "Verif.NetSpec.C99_num_agents",
    "Verif.NetSpec.C99_resource_loop_crash"
   ],
   "note": "With a queue that is an out-edge of its own target the claim fails: C99_resource_loop_crash (finding F38); C99_only_error says what can happen then."
  },
  {
   "property": "C100",
   "status": "proved",
   "theorems": [
    "Verif.NetSpec.C100_agents_conserved",
    "Verif.NetSpec.C100_max_agents_step",
    "Verif.NetSpec.C100_max_agents"
   ],
   "note": ""
  },
  {
   "property": "C101",
   "status": "proved",
   "theorems": [
    "Verif.NetSpec.C101_resources_never_created"
   ],
   "note": "Resources can be lost (F6, C68), so equality is false."
  },
  {
   "property": "C102",
   "status": "proved",
   "theorems": [
    "Verif.ResourceSpec.C102_door_ends_stream",
    "Verif.ResourceSpec.C102_others_keep_stream",
    "Verif.ResourceSpec.C102_stays_dead"
   ],
   "note": "States what the code does (F6): other classes continue the stream at every arrival."
  },
  {
   "property": "C103",
   "status": "proved",
   "theorems": [
    "Verif.NetSpec.C103_held_back",
    "Verif.NetSpec.C103_until_infinity",
    "Verif.NetSpec.C103_for_ever",
    "Verif.NetSpec.C103_locked_out"
   ],
   "note": "States what the code does; C103_locked_out is the deadlock (finding F39)."
  },
  {
   "property": "C104",
   "status": "proved",
   "theorems": [
    "Verif.C104_copy_selects",
    "Verif.C104_copy_numbers",
    "Verif.C104_copy_not_drawn",
    "Verif.C104_met"
   ],
   "note": "networkx 2 and later, whose copy() is self.__class__() followed by add_nodes_from and add_edges_from (finding F13). States what the code does."
  },
  {
   "property": "C105",
   "status": "proved",
   "theorems": [
    "Verif.UFSpec.C105_find_steps"
   ],
   "note": ""
  },
  {
   "property": "C106",
   "status": "proved",
   "theorems": [
    "Verif.ResourceSpec.C106_arrival_row",
    "Verif.ResourceSpec.C106_departure_row",
    "Verif.ResourceSpec.C106_line_miscounted",
    "Verif.ResourceSpec.C106_met"
   ],
   "note": "States what the code does; C106_line_miscounted shows a row that says nobody waits though the agent itself does (finding F40)."
  },
  {
   "property": "C107",
   "status": "proved",
   "theorems": [
    "Verif.QueueSpec.C107_simulate_nA_ends",
    "Verif.QueueSpec.C107_simulate_t_ends",
    "Verif.QueueSpec.C107_simulate_nD_ends",
    "Verif.QueueSpec.C107_pace_of_step",
    "Verif.QueueSpec.C107_t_endless",
    "Verif.QueueSpec.C107_nD_endless"
   ],
   "note": "QueueServer and LossQueue; simulate with a default n is a for loop and ends trivially. C107_t_endless, C107_nD_endless are the counterexamples without the hypotheses (finding F41)."
  },
  {
   "property": "C108",
   "status": "proved",
   "theorems": [
    "Verif.GenSpec.C108_types_law",
    "Verif.GenSpec.C108_random_graph_law",
    "Verif.GenSpec.C108_seeded",
    "Verif.GenSpec.C108_places",
    "Verif.GenSpec.C108_places_law"
   ],
   "note": "Real draws. np.random.choice is inverse transform sampling of one uniform draw per edge, in the order of the edges; accepted sums are positive. C108_seeded: with a seed each type is decided by a coordinate of a vertex (finding F27)."
  },
  {
   "property": "C109",
   "status": "partial",
   "theorems": [
    "Verif.NetSpec.C109_initialize_again_partial",
    "Verif.NetSpec.C109_clock_runs_back",
    "Verif.NetSpec.C109_max_agents_exceeded"
   ],
   "note": "Proved for queues that are active already or whose own clock is that of the network. False as stated: C109_clock_runs_back (finding F42)."
  },
  {
   "property": "C110",
   "status": "proved",
   "theorems": [
    "Verif.NetSpec.C110_one_event",
    "Verif.NetSpec.C110_never_again",
    "Verif.NetSpec.C110_only_leave",
    "Verif.NetSpec.C110_dies",
    "Verif.NetSpec.C110_negative_max_agents"
   ],
   "note": "States what the code does; the docstring only says that max_agents is the maximum number of agents in the network at any time (finding F43)."
  },
  {
   "property": "C111",
   "status": "proved",
   "theorems": [
    "Verif.NetSpec.C111_first_decisions",
    "Verif.NetSpec.C111_share_bound",
    "Verif.NetSpec.C111_long_run"
   ],
   "note": "Real draws, as for C96. GreedyAgents are not counted. The limit speaks of runs in which decisions at the vertex go on for ever; the example shows a network in which they do, whatever the draws."
  },
  {
   "property": "C112",
   "status": "proved",
   "theorems": [
    "Verif.ThinSpec.C112_poisson",
    "Verif.ThinSpec.C112_met",
    "Verif.NetSpec.C112_stream",
    "Verif.NetSpec.C112_from_start",
    "Verif.NetSpec.C112_stays_active"
   ],
   "note": "Real times; draws as for C95. The agents that came from outside are the history variable created of the model, written where the code makes an agent with its id and arrival time. The network may depend on the draws of the queue in any way. If the rate has a finite integral, a call of poisson_random_measure never returns with positive probability (C95)."
  },
  {
   "property": "C113",
   "status": "proved",
   "theorems": [
    "Verif.InfoSpec.C113_stats",
    "Verif.InfoSpec.C113_exact",
    "Verif.InfoSpec.C113_no_data",
    "Verif.InfoSpec.C113_wrong_total",
    "Verif.InfoSpec.C113_not_waited"
   ],
   "note": "States what the code does; C113_wrong_total, C113_not_waited show that this is not the time waited (finding F44). The array is int32: adding to it is an arbitrary function in C113_stats (it truncates), exact in C113_exact."
  },
  {
   "property": "C114",
   "status": "proved",
   "theorems": [
    "Verif.NetSpec.C114_until_ends",
    "Verif.NetSpec.C114_simulate_ends",
    "Verif.NetSpec.C114_pace_of_step"
   ],
   "note": "TypeError as in C99_resource_loop_crash (finding F38); services that take no time can make it endless (C88_rs_zero_service_endless)."
  },
  {
   "property": "C115",
   "status": "proved",
   "theorems": [
    "Verif.NetSpec.C115_retry",
    "Verif.NetSpec.C115_starves",
    "Verif.NetSpec.C115_endless"
   ],
   "note": "States what the code does (finding F30). The rounding is the function jit of the model, here the identity."
  },
  {
   "property": "C116",
   "status": "proved",
   "theorems": [
    "Verif.C116_network",
    "Verif.C116_new",
    "Verif.C116_time",
    "Verif.C116_seen",
    "Verif.C116_queue"
   ],
   "note": "The statistics of InfoAgents, which are read from data, are not part of these states (see C113)."
  },
  {
   "property": "C117",
   "status": "proved",
   "theorems": [
    "Verif.QueueSpec.C117_rows",
    "Verif.QueueSpec.C117_consistent",
    "Verif.QueueSpec.C117_stopped_during_visit",
    "Verif.QueueSpec.C117_started_during_visit"
   ],
   "note": "A queue by itself; an agent is in the queue at most once and none is scheduled twice (DataOk). C117_stopped_during_visit and C117_started_during_visit show the wrong rows (finding F45)."
  },
  {
   "property": "C118",
   "status": "proved",
   "theorems": [
    "Verif.ThinSpec.C118_independent",
    "Verif.ThinSpec.C118_total",
    "Verif.ThinSpec.C118_met"
   ],
   "note": "Real times; draws as for C95, those of different queues independent (C119 derives this for one generator). The network may depend on all the draws in any way."
  },
  {
   "property": "C119",
   "status": "proved",
   "theorems": [
    "Verif.ThinSpec.C119_draws",
    "Verif.ThinSpec.C119_users",
    "Verif.ThinSpec.C119_poisson",
    "Verif.ThinSpec.C119_met"
   ],
   "note": "About the numbers of the generator, an idealisation: independent, with any law. The rule says who draws next given the list of numbers so far. C119_poisson speaks of pairs of an exponential and a uniform draw, as C95 does."
  },
  {
   "property": "C120",
   "status": "proved",
   "theorems": [
    "Verif.ColourSpec.C120_one_event_per_frame",
    "Verif.ColourSpec.C120_events",
    "Verif.ColourSpec.C120_beyond_simulate",
    "Verif.ColourSpec.C120_shows",
    "Verif.ColourSpec.C120_rests"
   ],
   "note": "States what the code does (finding F46). matplotlib is taken to call update once for each frame; the drawing itself is not modelled. The colours as in C81, with its hypotheses."
  },
  {
   "property": "C121",
   "status": "proved",
   "theorems": [
    "Verif.NetSpec.C121_path",
    "Verif.ThinSpec.C121_number",
    "Verif.ThinSpec.C121_departures",
    "Verif.ThinSpec.C121_met"
   ],
   "note": "Real times; draws as for C95, services independent of them. The network may otherwise depend on the draws in any way. C121_path is deterministic and needs no law."
  },
  {
   "property": "C122",
   "status": "partial",
   "theorems": [
    "Verif.C122_accepts",
    "Verif.C122_attributes",
    "Verif.C122_servers_partial",
    "Verif.C122_no_servers",
    "Verif.C122_no_room",
    "Verif.C122_new",
    "Verif.C122_servers_not_checked",
    "Verif.C122_negative_buffer"
   ],
   "note": "Proved if the keyword nServers is not used and num_servers + qbuffer is positive. False in general: nServers and qbuffer are not checked, such queues serve nobody or admit nobody (C122_no_servers, C122_no_room, C122_servers_not_checked, C122_negative_buffer, finding F47)."
  },
  {
   "property": "C123",
   "status": "partial",
   "theorems": [
    "Verif.C123_colours",
    "Verif.C123_completed_partial",
    "Verif.C123_kept",
    "Verif.C123_assign",
    "Verif.C123_network",
    "Verif.C123_shared_dict",
    "Verif.C123_class_dict",
    "Verif.C123_defaults"
   ],
   "note": "Proved if all queues made with the same dict have the same default for the colour. False in general: the dict given is itself completed, so a second queue of another class gets the defaults of the first (C123_shared_dict, finding F48); C123_colours says what happens in every case."
  },
  {
   "property": "C124",
   "status": "proved",
   "theorems": [
    "Verif.NetSpec.C124_flow",
    "Verif.NetSpec.C124_vertex",
    "Verif.NetSpec.C124_queue",
    "Verif.NetSpec.C124_long_run",
    "Verif.NetSpec.C124_traffic_equations",
    "Verif.NetSpec.C124_resource_uncounted"
   ],
   "note": "The graph is a graph: each queue is an out-edge of the vertex it begins at, once (Graphic). The counters of ResourceQueues do not tell who came: C124_resource_uncounted."
  },
  {
   "property": "C125",
   "status": "proved",
   "theorems": [
    "Verif.C125_queue",
    "Verif.C125_next_event",
    "Verif.C125_network",
    "Verif.C125_network_rs",
    "Verif.C125_observed",
    "Verif.C125_simulate_t",
    "Verif.C125_unit",
    "Verif.C125_eps_has_a_unit"
   ],
   "note": "Says what is true (finding F49): EPS makes the unit matter with BAS. Rounding of floats is not invariant; the scale is any strictly increasing map, the functions of the second network are the translated ones."
  },
  {
   "property": "C126",
   "status": "proved",
   "theorems": [
    "Verif.C126_uninitialised_memory"
   ],
   "note": "The indices into the new memory are modelled (they stay below size); what a read outside the arrays would do is not."
  },
  {
   "property": "C127",
   "status": "partial",
   "theorems": [
    "Verif.C127_given_kept",
    "Verif.C127_queues",
    "Verif.C127_again_partial",
    "Verif.C127_without_args",
    "Verif.C127_network_okA",
    "Verif.C127_network_ok",
    "Verif.C127_default_ok",
    "Verif.C127_type_without_args",
    "Verif.C127_capacity_remembered",
    "Verif.C127_colours_remembered"
   ],
   "note": "C127_again_partial: proved for the parameters of queues if vertices have no capacities or adjust_graph=True. False otherwise: capacities and colours are entered in q_args and used again for the next network (C127_capacity_remembered, C127_colours_remembered, finding F51). Without q_args a type other than 0, ..., 4 raises KeyError though q_classes has a class for it (C127_type_without_args, C127_without_args, finding F50)."
  },
  {
   "property": "C128",
   "status": "proved",
   "theorems": [
    "Verif.C128_blocking",
    "Verif.C128_round_trip",
    "Verif.C128_constructor"
   ],
   "note": "str.lower is modelled for A-Z; no other character has r or s as its lower case."
  },
  {
   "property": "C129",
   "status": "partial",
   "theorems": [
    "Verif.PGraph.C129_vp",
    "Verif.PGraph.C129_ep",
    "Verif.PGraph.C129_new_vertex",
    "Verif.PGraph.C129_new_edge",
    "Verif.PGraph.C129_vertex_properties",
    "Verif.PGraph.C129_edge_properties",
    "Verif.PGraph.C129_is_edge",
    "Verif.PGraph.C129_vertices",
    "Verif.PGraph.C129_edges",
    "Verif.PGraph.C129_frozen",
    "Verif.PGraph.C129_set_vp",
    "Verif.PGraph.C129_set_ep",
    "Verif.PGraph.C129_set_pos",
    "Verif.PGraph.C129_vertex_colors_partial",
    "Verif.PGraph.C129_edge_colors_partial",
    "Verif.PGraph.C129_new_arrays",
    "Verif.PGraph.C129_edges_colored",
    "Verif.PGraph.C129_raises_after_writing",
    "Verif.PGraph.C129_set_pos_half",
    "Verif.PGraph.C129_wrong_array",
    "Verif.PGraph.C129_add_edge_color"
   ],
   "note": "False: set_vp, set_ep and set_pos write before they raise (C129_raises_after_writing, C129_set_pos_half), and a property of edges with the name of an array of vertices, or the other way round, overwrites the array (C129_wrong_array). Proved: reading, lists of names, vertices and edges for all histories without restriction; exactly when the methods raise and what they leave; the arrays if names are not mixed up and add_edge is given no edge_color (C129_add_edge_color)."
  },
  {
   "property": "C130",
   "status": "proved",
   "theorems": [
    "Verif.QueueSpec.C130_servers",
    "Verif.QueueSpec.C130_loss_room"
   ],
   "note": ""
  },
  {
   "property": "C131",
   "status": "proved",
   "theorems": [
    "Verif.QueueSpec.C131_activations"
   ],
   "note": ""
  },
  {
   "property": "C132",
   "status": "proved",
   "theorems": [
    "Verif.NetSpec.C132_network",
    "Verif.QueueSpec.C132_one_server",
    "Verif.QueueSpec.C132_services_in_order",
    "Verif.QueueSpec.C132_overtaking",
    "Verif.QueueSpec.C132_equal_arrivals"
   ],
   "note": ""
  },
  {
   "property": "C133",
   "status": "proved",
   "theorems": [
    "Verif.QueueSpec.C133_waiting_times",
    "Verif.QueueSpec.C133_starts",
    "Verif.QueueSpec.C133_long_run",
    "Verif.QueueSpec.C133_met"
   ],
   "note": ""
  },
  {
   "property": "C134",
   "status": "proved",
   "theorems": [
    "Verif.QueueSpec.C134_departures",
    "Verif.QueueSpec.C134_throughput"
   ],
   "note": ""
  },
  {
   "property": "C135",
   "status": "proved",
   "theorems": [
    "Verif.NetSpec.C135_line",
    "Verif.NetSpec.C135_bottleneck"
   ],
   "note": ""
  },
  {
   "property": "C136",
   "status": "proved",
   "theorems": [
    "Verif.NetSpec.C136_counts",
    "Verif.NetSpec.C136_rate"
   ],
   "note": ""
  },
  {
   "property": "C137",
   "status": "proved",
   "theorems": [
    "Verif.NetSpec.C137_faster",
    "Verif.NetSpec.C137_order"
   ],
   "note": ""
  },
  {
   "property": "C138",
   "status": "proved",
   "theorems": [
    "Verif.QueueSpec.C138_settles",
    "Verif.QueueSpec.C138_grows"
   ],
   "note": ""
  },
  {
   "property": "C139",
   "status": "proved",
   "theorems": [
    "Verif.QueueSpec.C139_law"
   ],
   "note": ""
  },
  {
   "property": "C140",
   "status": "proved",
   "theorems": [
    "Verif.QueueSpec.C140_exponential"
   ],
   "note": ""
  },
  {
   "property": "C141",
   "status": "proved",
   "theorems": [
    "Verif.QueueSpec.C141_means",
    "Verif.QueueSpec.C141_exponential"
   ],
   "note": ""
  },
  {
   "property": "C142",
   "status": "proved",
   "theorems": [
    "Verif.QueueSpec.C142_poisson"
   ],
   "note": ""
  },
  {
   "property": "C143",
   "status": "proved",
   "theorems": [
    "Verif.QueueSpec.C143_mean"
   ],
   "note": ""
  },
  {
   "property": "C144",
   "status": "proved",
   "theorems": [
    "Verif.QueueSpec.C144_tail"
   ],
   "note": ""
  },
  {
   "property": "C145",
   "status": "proved",
   "theorems": [
    "Verif.QueueSpec.C145_fast_server",
    "Verif.QueueSpec.C145_long_run"
   ],
   "note": ""
  },
  {
   "property": "C146",
   "status": "proved",
   "theorems": [
    "Verif.QueueSpec.C146_counts",
    "Verif.QueueSpec.C146_between",
    "Verif.QueueSpec.C146_rates"
   ],
   "note": ""
  },
  {
   "property": "C147",
   "status": "proved",
   "theorems": [
    "Verif.QueueSpec.C147_left",
    "Verif.QueueSpec.C147_found",
    "Verif.QueueSpec.C147_geometric"
   ],
   "note": ""
  },
  {
   "property": "C148",
   "status": "proved",
   "theorems": [
    "Verif.QueueSpec.C148_left_behind"
   ],
   "note": ""
  },
  {
   "property": "C149",
   "status": "proved",
   "theorems": [
    "Verif.QueueSpec.C149_mean_left"
   ],
   "note": ""
  },
  {
   "property": "C150",
   "status": "proved",
   "theorems": [
    "Verif.QueueSpec.C150_numbers_settle"
   ],
   "note": ""
  },
  {
   "property": "C151",
   "status": "proved",
   "theorems": [
    "Verif.QueueSpec.C151_counts",
    "Verif.QueueSpec.C151_between",
    "Verif.QueueSpec.C151_mean"
   ],
   "note": ""
  },
  {
   "property": "C152",
   "status": "proved",
   "theorems": [
    "Verif.QueueSpec.C152_found"
   ],
   "note": ""
  },
  {
   "property": "C153",
   "status": "proved",
   "theorems": [
    "Verif.QueueSpec.C153_waits",
    "Verif.QueueSpec.C153_constant",
    "Verif.QueueSpec.C153_numbers"
   ],
   "note": ""
  }
 ]
}