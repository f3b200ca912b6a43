{
 "claims": [
  {
   "property": "C01",
   "status": "proved",
   "theorems": [
    "Verif.Props.C01_blocks_permanent"
   ],
   "note": "All histories with all write fates; up to 2^32-3 insert calls (block heights are uint32)."
  },
  {
   "property": "C02",
   "status": "proved",
   "theorems": [
    "Verif.Props.C02_accept_iff",
    "Verif.Props.C02_orphan_refused",
    "Verif.Props.C02_refused_unchanged",
    "Verif.Props.C02_accepted_stored"
   ],
   "note": "Exact acceptance condition, orphan refusal, refused calls change nothing, accepted blocks are stored and leashed."
  },
  {
   "property": "C03",
   "status": "proved",
   "theorems": [
    "Verif.Props.C03_C04_new_block",
    "Verif.Props.C03_block_readback",
    "Verif.Props.C03_genesis",
    "Verif.Props.C03_height_is_path_length",
    "Verif.Props.C03_path_exists"
   ],
   "note": "Record of a new block, readback through Block, height = length of every path to genesis, path exists."
  },
  {
   "property": "C04",
   "status": "proved",
   "theorems": [
    "Verif.Props.C03_C04_new_block",
    "Verif.Props.C04_score_monotone"
   ],
   "note": "Score of a new block in C03_C04_new_block; monotone along ancestry."
  },
  {
   "property": "C05",
   "status": "proved",
   "theorems": [
    "Verif.Props.C05_known_block",
    "Verif.Props.C05_known_micro"
   ],
   "note": "Blocks and micro-blocks; the store is compared through every query (SameTree) and through all leashes."
  },
  {
   "property": "C06",
   "status": "proved",
   "theorems": [
    "Verif.Props.C06_leash_is_last_success",
    "Verif.Props.C06_leash_with_lost_acks"
   ],
   "note": "Exact for acknowledged writes; C06_leash_with_lost_acks covers writes whose acknowledgement was lost."
  },
  {
   "property": "C07",
   "status": "proved",
   "theorems": [
    "Verif.Props.C07_isolation",
    "Verif.Props.C07_told_apart",
    "Verif.Props.C07_zones_share"
   ],
   "note": "Isolation per address; addresses are told apart up to the IPv6 zone, which the key drops (C07_zones_share)."
  },
  {
   "property": "C08",
   "status": "partial",
   "theorems": [
    "Verif.Props.C08_leashes_partial",
    "Verif.Props.C08_missed"
   ],
   "note": "False for the all-ones IPv6 address and the invalid address (C08_leashes_missed); exact for every other address (C08_leashes_partial)."
  },
  {
   "property": "C09",
   "status": "proved",
   "theorems": [
    "Verif.Props.C09_no_dangling",
    "Verif.Props.C09_condition_needed"
   ],
   "note": "Needs that MoveLeash is only called with stored ids, as the loader does; C09_condition_needed shows why."
  },
  {
   "property": "C10",
   "status": "proved",
   "theorems": [
    "Verif.Props.C10_heads",
    "Verif.Props.C10_heads_grow"
   ],
   "note": "Heads are numbered 1..N and are exactly the stored blocks that no block stored in the history extends; heads never decrease in number."
  },
  {
   "property": "C11",
   "status": "proved",
   "theorems": [
    "Verif.Props.C11_active_heads"
   ],
   "note": "Exactly the heads on which some listed leash sits."
  },
  {
   "property": "C12",
   "status": "proved",
   "theorems": [
    "Verif.Props.C12_lastIDs",
    "Verif.Props.C12_nonempty",
    "Verif.Props.C12_stops_at_genesis",
    "Verif.Props.C12_unknown"
   ],
   "note": "The answer is a parent walk of min(count, height) blocks; counts from 0 up."
  },
  {
   "property": "C13",
   "status": "partial",
   "theorems": [
    "Verif.Props.C13_unique",
    "Verif.Props.C13_lca_exact",
    "Verif.Props.C13_lca_partial",
    "Verif.Props.C13_panics",
    "Verif.Props.C13_shapes",
    "Verif.Props.C13_panics_at_every_height"
   ],
   "note": "False in general: lca panics exactly when LcaPanics holds (C13_lca_exact); C13_lca_partial is the positive part, C13_panics the witness. C13_shapes builds a store for every height of the last common block and every length of the two branches, and says for each whether the comparison panics; C13_panics_at_every_height gives failing pairs for a last common block at any height."
  },
  {
   "property": "C14",
   "status": "partial",
   "theorems": [
    "Verif.Props.C14_lcb_partial",
    "Verif.Props.C14_answers",
    "Verif.Props.C14_panics"
   ],
   "note": "Exact whenever LCB answers, with a condition for answering; C14_panics shows that it may panic instead."
  },
  {
   "property": "C15",
   "status": "proved",
   "theorems": [
    "Verif.Props.C15_partition",
    "Verif.Props.C15_each_peer_once",
    "Verif.Props.C15_C16_C17_answers"
   ],
   "note": "Every iteration order and sort behaviour; C15_C16_C17_answers gives the condition for an answer."
  },
  {
   "property": "C16",
   "status": "proved",
   "theorems": [
    "Verif.Props.C15_C16_C17_answers",
    "Verif.Props.C16_ranked",
    "Verif.Props.C16_first_is_best"
   ],
   "note": "Every iteration order and sort behaviour."
  },
  {
   "property": "C17",
   "status": "proved",
   "theorems": [
    "Verif.Props.C15_C16_C17_answers",
    "Verif.Props.C17_lengths"
   ],
   "note": "Every entry of every report."
  },
  {
   "property": "C18",
   "status": "partial",
   "theorems": [
    "Verif.Props.C18_panics",
    "Verif.Props.C18_witness",
    "Verif.Props.C18_no_wrong_report_partial"
   ],
   "note": "False: Forks and Stats panic exactly when nobody is selected (C18_panics, C18_witness)."
  },
  {
   "property": "C19",
   "status": "proved",
   "theorems": [
    "Verif.Props.C19_fork_agrees",
    "Verif.Props.C19_fork_answers",
    "Verif.Props.C19_tie"
   ],
   "note": "Two independent iteration orders; equality of all fields when the best block is unique, C19_tie shows why that is needed."
  },
  {
   "property": "C20",
   "status": "proved",
   "theorems": [
    "Verif.Props.C20_stats",
    "Verif.Props.C20_stats_fails"
   ],
   "note": "Counts and failures of Stats follow Forks."
  },
  {
   "property": "C21",
   "status": "proved",
   "theorems": [
    "Verif.Props.C21_generators",
    "Verif.Props.C21_answers"
   ],
   "note": "Generators counted over the blocks of LastIDs."
  },
  {
   "property": "C22",
   "status": "proved",
   "theorems": [
    "Verif.Props.C22_micro_inherits",
    "Verif.Props.C22_micro_accept_iff",
    "Verif.Props.C22_micro_refused"
   ],
   "note": "Micro-block inherits its reference's record, exact acceptance condition, refusals leave the store unchanged."
  },
  {
   "property": "C23",
   "status": "proved",
   "theorems": [
    "Verif.Props.C23_putBlock_atomic",
    "Verif.Props.C23_putBlock_resumable",
    "Verif.Props.C23_putMicro_resumable",
    "Verif.Props.C23_putMicro_atomic"
   ],
   "note": "Every combination of write fates (failed, applied but not acknowledged) stands for a crash point."
  },
  {
   "property": "C24",
   "status": "proved",
   "theorems": [
    "Verif.Props.C24_reopen",
    "Verif.Props.C24_fresh",
    "Verif.Props.C24_first_open_resumable"
   ],
   "note": "Reopening is the identity on the database; facts about a first open; interrupted first open."
  },
  {
   "property": "C25",
   "status": "proved",
   "theorems": [
    "Verif.Props.C25_keys_injective",
    "Verif.Props.C25_numbers",
    "Verif.Props.C25_addresses"
   ],
   "note": "Injectivity of all seven key kinds, order and decoding of number keys, decoding of address keys."
  },
  {
   "property": "C26",
   "status": "proved",
   "theorems": [
    "Verif.Props.C26_same_blocks",
    "Verif.Props.C26_order",
    "Verif.Props.C26_same_reports",
    "Verif.Props.C26_micro_or_block"
   ],
   "note": "C26_same_blocks is more general than the claim (any histories); C26_micro_or_block shows the condition on contents is needed."
  },
  {
   "property": "C27",
   "status": "partial",
   "theorems": [
    "Verif.Props.C27_panics",
    "Verif.Props.C27_poisons",
    "Verif.Props.C27_partial"
   ],
   "note": "False as stated: C27_panics and C27_poisons are witnesses; C27_partial is what holds."
  },
  {
   "property": "C28",
   "status": "proved",
   "theorems": [
    "Verif.Props.C28_best_chosen",
    "Verif.Props.C28_longest_flag"
   ],
   "note": "Every iteration order."
  },
  {
   "property": "C29",
   "status": "proved",
   "theorems": [
    "Verif.Peers.C29_available"
   ],
   "note": "Exact set of available addresses in every reachable registry."
  },
  {
   "property": "C30",
   "status": "proved",
   "theorems": [
    "Verif.Peers.C30_not_twice"
   ],
   "note": "Any calls in between, for any addresses, with any write failures."
  },
  {
   "property": "C31",
   "status": "proved",
   "theorems": [
    "Verif.Peers.C31_unregister",
    "Verif.Peers.C31_suggest",
    "Verif.Peers.C31_rounding"
   ],
   "note": "Next attempt is rounded to whole seconds, so the pause may be half a second short (C31_rounding)."
  },
  {
   "property": "C32",
   "status": "proved",
   "theorems": [
    "Verif.Peers.C32_append"
   ],
   "note": "Exact effect of AppendAddresses when the writes succeed, and its count."
  },
  {
   "property": "C33",
   "status": "partial",
   "theorems": [
    "Verif.Peers.C33_not_dialled",
    "Verif.Peers.C33_no_version",
    "Verif.Peers.C33_stays_hostile_partial",
    "Verif.Peers.C33_managed_partial",
    "Verif.Peers.C33_revived"
   ],
   "note": "False as stated: RegisterPeer revives a hostile peer (C33_revived); what holds: it is not dialled, gets no version, and stays hostile while no handshake completes (C33_*_partial)."
  },
  {
   "property": "C34",
   "status": "partial",
   "theorems": [
    "Verif.Peers.C34_cycle_partial",
    "Verif.Peers.C34_same_minor_sticks"
   ],
   "note": "Needs that no two configured versions agree in major and minor number; C34_same_minor_sticks shows why."
  },
  {
   "property": "C35",
   "status": "proved",
   "theorems": [
    "Verif.Peers.C35_connections",
    "Verif.Peers.C35_unmanaged"
   ],
   "note": "For the histories the connection manager produces; C35_unmanaged shows that RegisterPeer alone can break Connections()."
  },
  {
   "property": "C36",
   "status": "proved",
   "theorems": [
    "Verif.Peers.C36_ipv4",
    "Verif.Peers.C36_ipv6_alias",
    "Verif.Peers.C36_damaged"
   ],
   "note": "All histories, including writes that fail; C36_ipv6_alias and C36_damaged are findings about lookups outside the claim."
  },
  {
   "property": "C37",
   "status": "proved",
   "theorems": [
    "Verif.Peers.C37_update",
    "Verif.Peers.C37_refused"
   ],
   "note": "Frame property over all registries; failed writes and unknown peers change nothing."
  },
  {
   "property": "C38",
   "status": "proved",
   "theorems": [
    "Verif.Peers.C38_not_connected",
    "Verif.Peers.C38_not_registered",
    "Verif.Peers.C38_not_dialled",
    "Verif.Peers.C38_not_appended"
   ],
   "note": "Own address (declared) is never connected, registered, dialled or appended."
  },
  {
   "property": "C39",
   "status": "proved",
   "theorems": [
    "Verif.Peers.C39_list",
    "Verif.Peers.C39_becomes"
   ],
   "note": "Exact list, order, and the only way into the Connected state."
  },
  {
   "property": "C40",
   "status": "proved",
   "theorems": [
    "Verif.Loading.C40_ready_iff",
    "Verif.Loading.C40_contents",
    "Verif.Loading.C40_last",
    "Verif.Loading.C40_unrequested",
    "Verif.Loading.C40_order"
   ],
   "note": "Readiness, order and contents for every request list and every sequence of arriving blocks; C40_last: the last block received without a gap."
  },
  {
   "property": "C41",
   "status": "partial",
   "theorems": [
    "Verif.Loading.C41_partial",
    "Verif.Loading.C41_duplicate"
   ],
   "note": "False for a request list with a repeated id (C41_duplicate: never ready, whatever arrives); true without repetitions (C41_partial)."
  },
  {
   "property": "C42",
   "status": "proved",
   "theorems": [
    "Verif.Loading.C42_requested",
    "Verif.Loading.C42_known"
   ],
   "note": "For every reachable loader over a serving store, with successful writes; the requested list is exact and in order."
  },
  {
   "property": "C43",
   "status": "proved",
   "theorems": [
    "Verif.Loading.C43_waiting",
    "Verif.Loading.C43_complete",
    "Verif.Loading.C43_refused"
   ],
   "note": "C43_complete gives the effect of a completed batch; C43_refused shows what a block refused by the store does to it."
  },
  {
   "property": "C44",
   "status": "partial",
   "theorems": [
    "Verif.Loading.C44_partial",
    "Verif.Loading.C44_stale",
    "Verif.Loading.C44_back"
   ],
   "note": "True for batches the store accepts (C44_partial); false for a queue left over from an earlier request (C44_stale) and after the distributor moved the leash on (C44_back)."
  },
  {
   "property": "C45",
   "status": "proved",
   "theorems": [
    "Verif.Loading.C45_iff",
    "Verif.Loading.C45_timestamp",
    "Verif.Loading.C45_resting"
   ],
   "note": "Exact condition for the timeout on every reachable loader; the time stamp is the time of the last request."
  },
  {
   "property": "C46",
   "status": "partial",
   "theorems": [
    "Verif.Loading.C46_stuck",
    "Verif.Loading.C46_one_peer",
    "Verif.Loading.C46_ticks_partial",
    "Verif.Loading.C46_ids_partial",
    "Verif.Loading.C46_blocks_partial"
   ],
   "note": "False: C46_stuck and C46_one_peer. What holds: ticks keep coming (C46_ticks_partial), a silent peer is released in a wait for ids (C46_ids_partial) and in a wait for blocks whose received prefix the store accepts (C46_blocks_partial)."
  },
  {
   "property": "C47",
   "status": "proved",
   "theorems": [
    "Verif.Loading.C47_others",
    "Verif.Loading.C47_empty",
    "Verif.Loading.C47_inactive",
    "Verif.Loading.C47_unexpected"
   ],
   "note": "Answers of others, empty answers, answers without a synchronisation and answers in the wrong state change nothing."
  },
  {
   "property": "C48",
   "status": "partial",
   "theorems": [
    "Verif.Loading.C48_start",
    "Verif.Loading.C48_restart_partial",
    "Verif.Loading.C48_crash"
   ],
   "note": "Exact message and starting point; after ten failures the search for the last common block may crash the program (C48_crash), so that half is partial."
  },
  {
   "property": "C49",
   "status": "partial",
   "theorems": [
    "Verif.Loading.C49_partial",
    "Verif.Loading.C49_remembered_partial",
    "Verif.Loading.C49_leftover"
   ],
   "note": "Exact condition in terms of the remembered difference (C49_partial), what changes it (C49_remembered_partial); the difference may be left over from another synchronisation (C49_leftover)."
  },
  {
   "property": "C50",
   "status": "proved",
   "theorems": [
    "Verif.Loading.C50_only",
    "Verif.Loading.C50_one",
    "Verif.Loading.C50_some",
    "Verif.Loading.C50_fair",
    "Verif.Loading.C50_nobody"
   ],
   "note": "Only lagging connected peers, one of them whenever there is one, the one with the number drawn, nothing otherwise; the peer is not replaced while the synchronisation runs."
  },
  {
   "property": "C51",
   "status": "proved",
   "theorems": [
    "Verif.Loading.C51_step",
    "Verif.Loading.C51_history",
    "Verif.Loading.C51_covered"
   ],
   "note": "Per event and over whole runs; C51_covered shows that every run has its number."
  },
  {
   "property": "C52",
   "status": "proved",
   "theorems": [
    "Verif.Props.C52_filter",
    "Verif.Props.C52_lossless",
    "Verif.Props.C52_table"
   ],
   "note": "Exact: skipped kinds are those on which the distributor has no effect in any reachable state."
  },
  {
   "property": "C53",
   "status": "partial",
   "theorems": [
    "Verif.Props.C53_deadlock",
    "Verif.Props.C53_stuck",
    "Verif.Props.C53_no_listener",
    "Verif.Props.C53_crash",
    "Verif.Props.C53_exit_partial",
    "Verif.Props.C53_steps_partial"
   ],
   "note": "False as stated: deadlock when the loader leaves before taking a package (C53_deadlock, C53_stuck), crash when the listener is missing (C53_no_listener, C53_crash). What holds: exit is reachable otherwise (C53_exit_partial), in at most eleven leaving steps, one of which is always enabled (C53_steps_partial)."
  },
  {
   "property": "C54",
   "status": "partial",
   "theorems": [
    "Verif.Props.C54_fires_partial",
    "Verif.Props.C54_armed_partial",
    "Verif.Props.C54_stops"
   ],
   "note": "False after one failed TakeAvailableAddresses, i.e. a record that does not decode or a snapshot that cannot be taken; errors of the iterator itself are not noticed, see C101 (C54_stops); otherwise the timer stays armed and dials exactly the available addresses."
  },
  {
   "property": "C55",
   "status": "partial",
   "theorems": [
    "Verif.Props.C55_request",
    "Verif.Props.C55_bad_request",
    "Verif.Props.C55_only_connected_partial",
    "Verif.Props.C55_everyone",
    "Verif.Props.C55_reports_the_absent"
   ],
   "note": "False when nobody who is asked for is connected: the report is then about all leashed peers (C55_everyone, C55_reports_the_absent); otherwise exact (C55_only_connected_partial)."
  },
  {
   "property": "C56",
   "status": "partial",
   "theorems": [
    "Verif.Props.C56_refused",
    "Verif.Props.C56_fork_partial",
    "Verif.Props.C56_answers_partial",
    "Verif.Props.C56_number",
    "Verif.Props.C56_generators_refused",
    "Verif.Props.C56_generators",
    "Verif.Props.C56_bad_numbers",
    "Verif.Props.C56_generators_answers_partial",
    "Verif.Props.C56_year",
    "Verif.Props.C56_year_witness",
    "Verif.Props.C56_zone",
    "Verif.Props.C56_panics"
   ],
   "note": "Data exact where there is an answer; there is none for zoned addresses, blocks dated after the year 10000, far branches, and negative or huge numbers of blocks (C56_zone, C56_year, C56_panics, C56_bad_numbers)."
  },
  {
   "property": "C57",
   "status": "partial",
   "theorems": [
    "Verif.Props.C57_calls_partial",
    "Verif.Props.C57_readers",
    "Verif.Props.C57_deadlock"
   ],
   "note": "Every schedule ends and all calls return when LogInitialStats is not among them (C57_calls_partial) or when there are only readers, as in the program (C57_readers); LogInitialStats beside a writer can deadlock (C57_deadlock)."
  },
  {
   "property": "C58",
   "status": "partial",
   "theorems": [
    "Verif.Props.C58_accepts_partial",
    "Verif.Props.C58_refuses",
    "Verif.Props.C58_panics",
    "Verif.Props.C58_silent"
   ],
   "note": "False: an IPv6 bind or declared address passes the checks and panics in As4 (C58_panics), and an unparsable declared address is dropped without an error (C58_silent); all other cases are accepted or refused with an error (C58_accepts_partial, C58_refuses)."
  },
  {
   "property": "C59",
   "status": "proved",
   "theorems": [
    "Verif.Peers.C59_broadcast"
   ],
   "note": "Every history and every map iteration order."
  },
  {
   "property": "C60",
   "status": "proved",
   "theorems": [
    "Verif.Props.C60_kept",
    "Verif.Props.C60_fresh",
    "Verif.Props.C60_latest"
   ],
   "note": "Over all histories; C60_kept and C60_fresh are the single steps."
  },
  {
   "property": "C61",
   "status": "proved",
   "theorems": [
    "Verif.Loading.C61_serving",
    "Verif.Loading.C61_kept"
   ],
   "note": "Over all runs with room in the uint32 heights."
  },
  {
   "property": "C62",
   "status": "proved",
   "theorems": [
    "Verif.Props.C62_exclusive"
   ],
   "note": "Over all schedules of any number of goroutines."
  },
  {
   "property": "C63",
   "status": "proved",
   "theorems": [
    "Verif.Props.C63_connections"
   ],
   "note": "Over all executions of the program; the condition Managed of C35 is discharged by the invariant of the program."
  },
  {
   "property": "C64",
   "status": "proved",
   "theorems": [
    "Verif.Props.C64_order",
    "Verif.Props.C64_taken",
    "Verif.Props.C64_delivered",
    "Verif.Props.C64_ids"
   ],
   "note": "Order and completeness over all executions; content of what is sent for ids and signatures; blocks are in C65."
  },
  {
   "property": "C65",
   "status": "proved",
   "theorems": [
    "Verif.Props.C65_block",
    "Verif.Props.C65_undecodable"
   ],
   "note": "With writes that succeed, a generator and a base target below 2^63."
  },
  {
   "property": "C66",
   "status": "proved",
   "theorems": [
    "Verif.Props.C66_peers"
   ],
   "note": "Exact answer in every reachable state."
  },
  {
   "property": "C67",
   "status": "partial",
   "theorems": [
    "Verif.Props.C67_broken_partial",
    "Verif.Props.C67_replaced"
   ],
   "note": "False when the peer opened a second connection (C67_replaced); true when the broken connection is the registered one (C67_broken_partial)."
  },
  {
   "property": "C68",
   "status": "proved",
   "theorems": [
    "Verif.Props.C68_score",
    "Verif.Props.C68_ignored"
   ],
   "note": "Exact effect, in every reachable state."
  },
  {
   "property": "C69",
   "status": "partial",
   "theorems": [
    "Verif.Props.C69_survives_partial",
    "Verif.Props.C69_base_target",
    "Verif.Props.C69_app_name"
   ],
   "note": "False: a block with a base target of 2^63 or more on a known parent, or a handshake with an empty application name, panics (C69_base_target, C69_app_name); everything else is survived (C69_survives_partial)."
  },
  {
   "property": "C70",
   "status": "partial",
   "theorems": [
    "Verif.Props.C70_heads",
    "Verif.Props.C70_answers_partial",
    "Verif.Props.C70_year"
   ],
   "note": "Exact where there is an answer (C70_heads); no answer when a head is dated after the year 10000 (C70_year)."
  },
  {
   "property": "C71",
   "status": "partial",
   "theorems": [
    "Verif.Props.C71_leashes",
    "Verif.Props.C71_answers_partial",
    "Verif.Props.C71_year"
   ],
   "note": "Exact where there is an answer (C71_leashes); no answer when a peer is on a block dated after the year 10000 (C71_year)."
  },
  {
   "property": "C72",
   "status": "partial",
   "theorems": [
    "Verif.Props.C72_status_partial",
    "Verif.Props.C72_no_forks"
   ],
   "note": "False without leashes: the request panics (C72_no_forks); exact whenever the forks can be computed."
  },
  {
   "property": "C73",
   "status": "proved",
   "theorems": [
    "Verif.Props.C73_peers"
   ],
   "note": "Exact, in every reachable registry."
  },
  {
   "property": "C74",
   "status": "partial",
   "theorems": [
    "Verif.Props.C74_seeds_partial",
    "Verif.Props.C74_ipv6"
   ],
   "note": "False for true IPv6 seed peers, which are accepted and then dropped (C74_ipv6); proved for IPv4 ones, plain or IPv4-mapped. Two of them with the same address count once, with the port of the first one."
  },
  {
   "property": "C75",
   "status": "proved",
   "theorems": [
    "Verif.Peers.C75_again",
    "Verif.Peers.C75_write_failed"
   ],
   "note": "Proved with the half second that rounding may add; C75_write_failed covers a refused write."
  },
  {
   "property": "C76",
   "status": "proved",
   "theorems": [
    "Verif.Peers.C76_announced"
   ],
   "note": "Proved in every reachable registry."
  },
  {
   "property": "C77",
   "status": "proved",
   "theorems": [
    "Verif.Props.C77_joins",
    "Verif.Props.C77_record",
    "Verif.Props.C77_refused"
   ],
   "note": "Proved; the record needs a node name in UTF-8 and a working database (C77_record), the connection does not (C77_joins)."
  },
  {
   "property": "C78",
   "status": "partial",
   "theorems": [
    "Verif.Props.C78_closed_partial",
    "Verif.Props.C78_own_address",
    "Verif.Props.C78_unparsable"
   ],
   "note": "False for connections from our own address and for declared addresses that do not parse, which stay open (C78_own_address, C78_unparsable); all others are closed (C78_closed_partial)."
  },
  {
   "property": "C79",
   "status": "proved",
   "theorems": [
    "Verif.Props.C79_addresses"
   ],
   "note": "Proved; exact effect."
  },
  {
   "property": "C80",
   "status": "proved",
   "theorems": [
    "Verif.Props.C80_micro",
    "Verif.Props.C80_unusable"
   ],
   "note": "Proved; exact cases."
  },
  {
   "property": "C81",
   "status": "proved",
   "theorems": [
    "Verif.Props.C81_ping"
   ],
   "note": "Proved."
  },
  {
   "property": "C82",
   "status": "proved",
   "theorems": [
    "Verif.Props.C82_peers",
    "Verif.Props.C82_friendly",
    "Verif.Props.C82_connections"
   ],
   "note": "Proved for every execution in which the clock stays between 1970 and 9999."
  },
  {
   "property": "C83",
   "status": "partial",
   "theorems": [
    "Verif.Props.C83_failed_partial",
    "Verif.Props.C83_lost"
   ],
   "note": "False: a connection that came in while the dial was pending is dropped from the registry (C83_lost); everything else is not touched (C83_failed_partial)."
  },
  {
   "property": "C84",
   "status": "proved",
   "theorems": [
    "Verif.Props.C84_connections",
    "Verif.Props.C84_versions",
    "Verif.Props.C84_no_crash"
   ],
   "note": "Proved."
  },
  {
   "property": "C85",
   "status": "partial",
   "theorems": [
    "Verif.Props.C85_marked_partial",
    "Verif.Props.C85_not_marked",
    "Verif.Props.C85_mark"
   ],
   "note": "False for nodes whose names are not UTF-8 (C85_not_marked): the record cannot be encoded, so it never becomes hostile. Proved for all others (C85_marked_partial) and for MarkAsHostile (C85_mark)."
  },
  {
   "property": "C86",
   "status": "proved",
   "theorems": [
    "Verif.Props.C86_position",
    "Verif.Props.C86_silent",
    "Verif.Props.C86_forks"
   ],
   "note": "Proved for every execution that leaves room below the uint32 limit of heights."
  },
  {
   "property": "C87",
   "status": "proved",
   "theorems": [
    "Verif.Props.C87_blocks"
   ],
   "note": "Proved for every execution that leaves room below the uint32 limit of heights."
  },
  {
   "property": "C88",
   "status": "proved",
   "theorems": [
    "Verif.Props.C88_dialled",
    "Verif.Props.C88_never",
    "Verif.Props.C88_port",
    "Verif.Services.Fine.C88_dialled_reads",
    "Verif.Services.Fine.C88_never_reads",
    "Verif.Services.Fine.C88_port_reads"
   ],
   "note": "Proved in full, also for the program with failing reads and the interleaved loader (C88_dialled_reads, C88_never_reads, C88_port_reads)."
  },
  {
   "property": "C89",
   "status": "proved",
   "theorems": [
    "Verif.Loading.C89_released",
    "Verif.Loading.C89_rounds",
    "Verif.Loading.C89_can_finish",
    "Verif.Loading.C89_begins",
    "Verif.Loading.C89_faithful"
   ],
   "note": "assumes that no difference is left over from an earlier synchronisation (C49_leftover shows that it can be and that the claim then fails), that writes succeed and that answers come within 30 seconds; C89_faithful and C89_begins show where the assumptions on the store and the beginning come from"
  },
  {
   "property": "C90",
   "status": "proved",
   "theorems": [
    "Verif.Props.C90_before",
    "Verif.Props.C90_exited",
    "Verif.Props.C90_order",
    "Verif.Props.C90_stopped"
   ],
   "note": "the exit itself is not always reached: C53"
  },
  {
   "property": "C91",
   "status": "proved",
   "theorems": [
    "Verif.Props.C91_serial",
    "Verif.Props.C91_registry_serial",
    "Verif.Props.C91_order",
    "Verif.Props.C91_store",
    "Verif.Props.C91_registry",
    "Verif.Props.C91_methods",
    "Verif.Props.C91_returns",
    "Verif.Props.C91_registry_returns"
   ],
   "note": "a single access to the database is atomic (goleveldb); LogInitialStats with a number of heads fixed beforehand"
  },
  {
   "property": "C92",
   "status": "proved",
   "theorems": [
    "Verif.Loading.C92_alone",
    "Verif.Loading.C92_includes",
    "Verif.Loading.C92_quiet",
    "Verif.Loading.C92_store",
    "Verif.Loading.C92_crash",
    "Verif.Loading.C92_goes_on",
    "Verif.Loading.C92_origin",
    "Verif.Loading.C92_requests",
    "Verif.Loading.C92_watched",
    "Verif.Loading.C92_early_release"
   ],
   "note": "The handlers are modelled as programs that make one call at a time; the messages they send are recorded at the end of the event. Releasing an honest peer early is possible at this level: C92_early_release, section 4 of DESIGN.md."
  },
  {
   "property": "C93",
   "status": "partial",
   "theorems": [
    "Verif.Props.C93_listed",
    "Verif.Props.C93_accounted_partial",
    "Verif.Props.C93_closed",
    "Verif.Props.C93_lost"
   ],
   "note": "Disagreement: of two connections of one address the first is dropped from the list and never closed (C93_lost); the other ways are C67_replaced, C78_own_address, C78_unparsable and C83_lost. C93_accounted_partial shows that there are no further ones."
  },
  {
   "property": "C94",
   "status": "partial",
   "theorems": [
    "Verif.Props.C94_reopens",
    "Verif.Props.C94_kept",
    "Verif.Props.C94_start_exact",
    "Verif.Props.C94_starts_partial",
    "Verif.Props.C94_stuck",
    "Verif.Props.C94_peers",
    "Verif.Props.C94_never_again",
    "Verif.Props.C94_redial"
   ],
   "note": "Disagreement: after a single block with a timestamp of 2^63 - 1 or more on the head that a peer is on, LogInitialStats panics at every later start and nothing ever changes again (C94_never_again, C94_stuck). C94_start_exact gives the exact condition; C94_starts_partial is the claim without such blocks. C94_peers: what the database of the peers contains after the process has been killed, also in the middle of AppendAddresses. Trusted of goleveldb: batches are kept or lost as a whole, and opening makes the contents durable."
  },
  {
   "property": "C95",
   "status": "partial",
   "theorems": [
    "Verif.Props.C95_store",
    "Verif.Props.C95_program",
    "Verif.Props.C95_lives",
    "Verif.Props.C95_ancestors",
    "Verif.Props.C95_last",
    "Verif.Props.C95_agree",
    "Verif.Props.C95_isolated_partial",
    "Verif.Props.C95_liar"
   ],
   "note": "Disagreement: ids are not checked against contents. A micro-block announcement with the id of a coming block as its total id stores that id with the height, score and parent of the block it refers to; the peer that then sends the true block is shown with the wrong height, score and chain for ever (C95_liar). C95_isolated_partial is the claim when nobody lies."
  },
  {
   "property": "C96",
   "status": "proved",
   "theorems": [
    "Verif.Props.C96_report",
    "Verif.Props.C96_detected",
    "Verif.Props.C96_best",
    "Verif.Props.C96_fork",
    "Verif.Props.C96_program"
   ],
   "note": "Stated against what the ids stand for, not against the store. Whether a report is answered at all is the subject of C13, C14 and C56; that messages must not lie is the subject of C95."
  },
  {
   "property": "C97",
   "status": "proved",
   "theorems": [
    "Verif.Props.C97_ends",
    "Verif.Props.C97_can_finish",
    "Verif.Props.C97_begins",
    "Verif.Props.C97_truthful",
    "Verif.Props.C97_reported"
   ],
   "note": "The property C89 for the whole program, from the messages to the reports: the distributor puts every block into the store before the loader sees it, and hands packages over through channels. The condition that the distributor does not hold an old list of ids of the peer when the synchronisation begins is needed: such a list would be taken for the answer. Reports leave out the addresses named in C08 (the invalid one, IPv6 all ones, and those with a zone)."
  },
  {
   "property": "C98",
   "status": "partial",
   "theorems": [
    "Verif.Props.C98_queries",
    "Verif.Props.C98_score_partial",
    "Verif.Props.C98_score_wrong"
   ],
   "note": "C98_queries: each of the queries on any store under any set of unreadable keys is the answer of a good disk or the read error. C98_score_partial: LeashScore is right or an error when no block with the zero id is stored; C98_score_wrong is the counterexample otherwise (linkage.go:163-178 goes on with the zero id after an error)."
  },
  {
   "property": "C99",
   "status": "partial",
   "theorems": [
    "Verif.Props.C99_leashes",
    "Verif.Props.C99_heads",
    "Verif.Props.C99_reports_partial",
    "Verif.Props.C99_none_missed",
    "Verif.Props.C99_wrong"
   ],
   "note": "False: C99_wrong (a walk that stops early gives a fork report without the best chain, which calls another one the longest, and no error). C99_leashes and C99_heads give the lists exactly; C99_reports_partial: a report is an error or that of a reachable store with the same blocks without the missed peers; C99_none_missed: right or an error if no leash is missed."
  },
  {
   "property": "C100",
   "status": "proved",
   "theorems": [
    "Verif.Props.C100_call",
    "Verif.Props.C100_history",
    "Verif.Props.C100_reachable",
    "Verif.Props.C100_start"
   ],
   "note": "C100_call and C100_history, for any store and any faults that may differ from call to call; C100_reachable brings all other properties to such histories; C100_start: opening a store whose counter cannot be read fails without writing."
  },
  {
   "property": "C101",
   "status": "partial",
   "theorems": [
    "Verif.Peers.C101_peer",
    "Verif.Peers.C101_connections",
    "Verif.Peers.C101_lists_partial",
    "Verif.Peers.C101_damaged",
    "Verif.Peers.C101_wrong",
    "Verif.Services.Fine.C101_answer_partial"
   ],
   "note": "C101_peer and C101_connections: right or an error. C101_lists_partial: the lists are those of a good disk without the missed entries; C101_wrong: no error says so; C101_answer_partial: the same of the lists sent to other peers, after every execution with failing reads. C101_damaged: a record that does not decode makes the lists and the choice of addresses an error, never a shorter list."
  },
  {
   "property": "C102",
   "status": "partial",
   "theorems": [
    "Verif.Peers.C102_call_partial",
    "Verif.Peers.C102_append",
    "Verif.Peers.C102_take",
    "Verif.Peers.C102_history",
    "Verif.Peers.C102_never_dialled",
    "Verif.Peers.C102_dead_connection"
   ],
   "note": "C102_call_partial, C102_append, C102_take for single calls, C102_history: the registry stays reachable, so all other properties of registries hold after failed reads too. C102_never_dialled and C102_dead_connection: what a failed read in UnregisterPeer costs (registry.go:164-170 returns before the deletions)."
  },
  {
   "property": "C103",
   "status": "partial",
   "theorems": [
    "Verif.Loading.C103_good",
    "Verif.Loading.C103_store",
    "Verif.Loading.C103_call",
    "Verif.Loading.C103_lookup",
    "Verif.Loading.C103_crash",
    "Verif.Loading.C103_origin",
    "Verif.Loading.C103_requests",
    "Verif.Loading.C103_watched",
    "Verif.Loading.C103_cause",
    "Verif.Loading.C103_release_partial",
    "Verif.Loading.C103_chosen",
    "Verif.Loading.C103_stuck",
    "Verif.Loading.C103_wrong"
   ],
   "note": "C103_good: on a disk that reads well the runs are those of C92; C103_store, C103_crash, C103_origin, C103_requests, C103_watched: what C92 says holds whatever reads fail; C103_cause: the only states in which the loader waits without expecting an answer, and the failed calls that lead there; C103_release_partial: a late tick ends the synchronisation unless one of three kinds of calls failed; C103_call: a call does what it does on a good disk, or returns an error and changes nothing; C103_lookup: which blocks are requested after a list of ids, and that nothing is requested when a lookup fails; C103_chosen: with which peer a synchronisation begins, and why none does; C103_stuck: in these states the loader never does anything again; C103_wrong: three runs with one failed read each that end there."
  },
  {
   "property": "C104",
   "status": "partial",
   "theorems": [
    "Verif.Props.C104_delivered",
    "Verif.Props.C104_forks_partial",
    "Verif.Props.C104_heads_partial",
    "Verif.Props.C104_leashes_partial",
    "Verif.Props.C104_peers_partial",
    "Verif.Props.C104_status_partial",
    "Verif.Props.C104_closed",
    "Verif.Props.C104_good",
    "Verif.Props.C104_wrong"
   ],
   "note": "C104_delivered: right or status 500 when iterations deliver everything, whatever reads of single records fail and whenever the databases are closed; C104_good: on good databases the handlers are those of the other properties; C104_closed: after the closing no answer has data; C104_forks_partial, C104_heads_partial, C104_leashes_partial, C104_peers_partial, C104_status_partial: exactly what is in the answers when iterations miss entries; C104_wrong: wrong answers with status 200."
  },
  {
   "property": "C105",
   "status": "proved",
   "theorems": [
    "Verif.Services.Fine.C105_program",
    "Verif.Services.Fine.C105_store",
    "Verif.Services.Fine.C105_loader",
    "Verif.Services.Fine.C105_channels",
    "Verif.Services.Fine.C105_origin",
    "Verif.Services.Fine.C105_event",
    "Verif.Services.Fine.C105_dropped",
    "Verif.Services.Fine.C105_unreadable",
    "Verif.Services.Fine.C105_signal",
    "Verif.Services.Fine.C105_crash",
    "Verif.Services.Fine.C105_exit"
   ],
   "note": "C105_unreadable: the events that an unreadable record or id spoils; C105_signal: the services run until the signal and the ticker only while it is on; C105_loader: the loader inside the program is that of C103; C105_program: the executions of the coarse program on good disks are among those considered; C105_store, C105_channels, C105_origin: what is stored, passed on, and by whom it was sent; C105_event: an event of another goroutine than the loader is that of a good disk or one of the listed spoilt ones (the steps of the loader are C103); C105_dropped: witness of a requested block that is lost; C105_crash: every panic is one that happens on a good disk too; C105_exit: after the signal the program ends or the loader panics as in C105_crash, with the exceptions of a good disk."
  },
  {
   "property": "C106",
   "status": "proved",
   "theorems": [
    "Verif.Loading.C106_released",
    "Verif.Loading.C106_rounds",
    "Verif.Loading.C106_can_finish",
    "Verif.Loading.C106_begins",
    "Verif.Loading.C106_others"
   ],
   "note": "The conditions on the peer are those of C89. The condition on the position of the peer in the middle of an event is needed: C92_early_release shows what happens when a second copy of an older block is stored at that moment. C106_others says which calls meet it; C106_begins shows that the synchronisations started by the timer begin as assumed, whatever others do in the meantime."
  },
  {
   "property": "C107",
   "status": "proved",
   "theorems": [
    "Verif.Services.Fine.C107_ends",
    "Verif.Services.Fine.C107_rounds",
    "Verif.Services.Fine.C107_can_finish",
    "Verif.Services.Fine.C107_begins",
    "Verif.Services.Fine.C107_truthful",
    "Verif.Services.Fine.C107_reported"
   ],
   "note": "During the synchronisation the reads of the loader succeed; C103_release_partial says what one that fails can do. Blocks that the peer itself sends while the loader handles an event must be of its history and not before its position, as in C106. Nothing is asked of the other peers but that they do not send false blocks of this history."
  },
  {
   "property": "C108",
   "status": "partial",
   "theorems": [
    "Verif.Loading.C108_partial",
    "Verif.Loading.C108_failed_partial",
    "Verif.Loading.C108_wrong",
    "Verif.Loading.C108_refused"
   ],
   "note": "C108_partial and C108_failed_partial assume that no call of the loader returned an error and that no list of ids from the peer contained an id twice; C108_wrong shows for both that the claim fails without."
  },
  {
   "property": "C109",
   "status": "proved",
   "theorems": [
    "Verif.Services.Fine.C109_settled",
    "Verif.Services.Fine.C109_opens",
    "Verif.Services.Fine.C109_reported"
   ],
   "note": "C109_settled is the claim for the store, C109_reported goes on to the report of the forks; C109_opens shows that every synchronisation started by the timer opens with such a request."
  },
  {
   "property": "C110",
   "status": "proved",
   "theorems": [
    "Verif.Services.Fine.C110_ends",
    "Verif.Services.Fine.C110_reported"
   ],
   "note": "C110_ends is the claim for the store, C110_reported goes on to the report of the forks."
  },
  {
   "property": "C111",
   "status": "proved",
   "theorems": [
    "Verif.Services.Fine.C111_moves",
    "Verif.Services.Fine.C111_still",
    "Verif.Services.Fine.C111_position",
    "Verif.Services.Fine.C111_silent"
   ],
   "note": "C111_moves is the claim for one event; C111_still, C111_position and C111_silent follow for executions."
  },
  {
   "property": "C112",
   "status": "proved",
   "theorems": [
    "Verif.Services.Fine.C112_settles",
    "Verif.Services.Fine.C112_reported"
   ],
   "note": "C112_settles is the claim; C112_reported adds what the reports show. A difference left over from an earlier failed synchronisation is allowed: it can cut the first synchronisation short, not the later ones. The number of calls that insert blocks has to stay below the room of the store (heights are 32 bit), as in all theorems about executions."
  },
  {
   "property": "C113",
   "status": "proved",
   "theorems": [
    "Verif.Services.Fine.C113_report",
    "Verif.Services.Fine.C113_answers",
    "Verif.Services.Fine.C113_fork",
    "Verif.Services.Fine.C113_quiet"
   ],
   "note": "C113_report is the claim about the entries, C113_fork and C113_quiet are the two consequences (no fork is missed, no alarm is false), C113_answers says when the report is given (the limit comes from the search for the common ancestor, see C17)."
  },
  {
   "property": "C114",
   "status": "proved",
   "theorems": [
    "Verif.Services.C114_listens",
    "Verif.Services.C114_only",
    "Verif.Services.C114_mistake"
   ],
   "note": "C114_listens and C114_only are the claim; C114_mistake is the part about a declared address that is none. Found by an automated change of a constant in the model (see seeded/LOG.jsonl) that no earlier theorem noticed."
  },
  {
   "property": "C115",
   "status": "partial",
   "theorems": [
    "Verif.Loading.C115_kept",
    "Verif.Loading.C115_starves",
    "Verif.Loading.C115_batches_partial",
    "Verif.Loading.C115_bound_partial",
    "Verif.Loading.C115_example",
    "Verif.Loading.C115_climbing"
   ],
   "note": "Partial: the code violates the property. C115_kept and C115_starves show that a peer that announced a high score and answers with one known id, by turns of two stored blocks, keeps the loader for ever; C115_example is a concrete instance with a second lagging peer. C115_batches_partial and C115_bound_partial prove the bound for synchronisations in which the score of the position does not go down; missing are those in which it does."
  },
  {
   "property": "C116",
   "status": "proved",
   "theorems": [
    "Verif.Props.C116_routes",
    "Verif.Props.C116_unique",
    "Verif.Props.C116_methods",
    "Verif.Props.C116_asked",
    "Verif.Props.C116_paths",
    "Verif.Props.C116_only"
   ],
   "note": "C116_routes and C116_unique: the router against a table of texts; C116_methods, C116_only: nothing else gets a report; C116_asked and C116_paths: the ten reports by name. net/url and the router chi are modelled from their documented behaviour (Services/Routes.lean), not read in /repo."
  },
  {
   "property": "C117",
   "status": "partial",
   "theorems": [
    "Verif.Props.C117_exact",
    "Verif.Props.C117_encoded_partial",
    "Verif.Props.C117_refused",
    "Verif.Props.C117_witness",
    "Verif.Props.C117_query",
    "Verif.Props.C117_forks",
    "Verif.Props.C117_query_plain"
   ],
   "note": "Partial: the code violates the property for addresses of version 6. C117_exact says for every text what the handler gets; C117_refused and C117_witness: an encoded colon is never decoded, and the request is answered with 400 for a peer that is known; C117_encoded_partial covers addresses without a colon. Queries decode as they should: C117_query, C117_query_plain; C117_forks: the first peers value of the query is the one the fork reports use."
  },
  {
   "property": "C118",
   "status": "partial",
   "theorems": [
    "Verif.Props.C118_partial",
    "Verif.Props.C118_orderly",
    "Verif.Props.C118_refused",
    "Verif.Props.C118_told",
    "Verif.Props.C118_databases",
    "Verif.Props.C118_unseen",
    "Verif.Props.C118_api",
    "Verif.Props.C118_statuses",
    "Verif.Props.C118_witness"
   ],
   "note": "Partial: the code violates the property when the standard error cannot be written: main returns, and the status is 0 for every refused command line (C118_unseen, C118_witness). C118_partial: with a writable standard error, status 0 means help or an orderly stop after the signal. C118_orderly is the other direction. C118_refused, C118_told, C118_databases: what keeps the program from starting is told with status 1. C118_api, C118_statuses: the ends of a program that has started."
  },
  {
   "property": "C119",
   "status": "partial",
   "theorems": [
    "Verif.Props.C119_partial",
    "Verif.Props.C119_order",
    "Verif.Props.C119_core",
    "Verif.Props.C119_generators",
    "Verif.Props.C119_responses",
    "Verif.Props.C119_leashes",
    "Verif.Props.C119_status",
    "Verif.Props.C119_witness",
    "Verif.Props.C119_panics"
   ],
   "note": "Partial: the code violates the property when two leashed blocks are tied for the best one: C119_witness (the numbers of short and long forks change from call to call) and C119_panics (one call panics, the next one answers). C119_partial, C119_responses, C119_status: the property holds when one block is best; C119_order: the order is the same too when no two blocks tie. C119_core, C119_generators, C119_leashes: what holds whatever the ties."
  },
  {
   "property": "C120",
   "status": "proved",
   "theorems": [
    "Verif.Props.C120_size",
    "Verif.Props.C120_call",
    "Verif.Props.C120_reopen",
    "Verif.Props.C120_bound",
    "Verif.Props.C120_links"
   ],
   "note": "C120_size: exact number of records; C120_call: what one call may add; C120_reopen; C120_bound: whatever is repeated; C120_links: the records themselves do not grow. The number of records is counted, not the bytes on the disk, which goleveldb decides."
  },
  {
   "property": "C121",
   "status": "proved",
   "theorems": [
    "Verif.Peers.C121_size",
    "Verif.Peers.C121_bound",
    "Verif.Peers.C121_call",
    "Verif.Peers.C121_unlimited",
    "Verif.Peers.C121_flood",
    "Verif.Services.Fine.C121_program",
    "Verif.Services.Fine.C121_never_lost"
   ],
   "note": "C121_size, C121_call, C121_bound: the size and what it depends on; C121_unlimited, C121_flood: there is no limit besides, so one peer can fill the database with addresses (design, section 4); C121_program, C121_never_lost: where the records come from and that none is lost, in the whole program with failing reads and the interleaved loader."
  },
  {
   "property": "C122",
   "status": "proved",
   "theorems": [
    "Verif.Props.C122_chains",
    "Verif.Props.C122_peers",
    "Verif.Props.C122_status",
    "Verif.Props.C122_any",
    "Verif.Props.C122_peer_fields",
    "Verif.Props.C122_fork_fields",
    "Verif.Props.C122_forks_have_peers",
    "Verif.Props.C122_missed",
    "Verif.Props.C122_other_fields",
    "Verif.Props.C122_forks_apart",
    "Verif.Props.C122_others_apart",
    "Verif.Props.C122_peers_apart",
    "Verif.Props.C122_empty",
    "Verif.Props.C122_other_names"
   ],
   "note": "C122_chains, C122_peers, C122_status: the text is read back; C122_any: one line, UTF-8, no markup; C122_peer_fields, C122_fork_fields, C122_other_fields: the names of the fields; C122_forks_have_peers, C122_missed: when a fork has null for its score and its peers; C122_forks_apart, C122_others_apart, C122_peers_apart: nothing is lost; C122_empty; C122_other_names: why names have to be UTF-8. The texts of times, IPv6 addresses and versions are parameters with stated laws."
  },
  {
   "property": "C123",
   "status": "partial",
   "theorems": [
    "Verif.Props.C123_read_back",
    "Verif.Props.C123_one_peer",
    "Verif.Props.C123_reports",
    "Verif.Props.C123_fork_partial",
    "Verif.Props.C123_query",
    "Verif.Props.C123_ports",
    "Verif.Props.C123_lawful",
    "Verif.Props.C123_zone"
   ],
   "note": "False for the reports about peers, which show each address with a port: such a text is refused with 400 (C123_ports). For the reports about forks and leashes: C123_read_back, C123_one_peer, C123_reports, C123_fork_partial, C123_query. C123_lawful and C123_zone discharge the laws about addresses that C122 and C117 take as hypotheses. The hypothesis of C123_query about spaces says that unicode.IsSpace is false for digits, the letters a to f, dot and colon."
  },
  {
   "property": "C124",
   "status": "proved",
   "theorems": [
    "Verif.Props.C124_read",
    "Verif.Props.C124_seconds",
    "Verif.Props.C124_limits",
    "Verif.Props.C124_lawful",
    "Verif.Props.C124_reports",
    "Verif.Props.C124_never"
   ],
   "note": "C124_read, C124_reports; C124_limits: the range of times; C124_seconds: how far the text is off for offsets with seconds; C124_lawful: the library as modelled (addresses and times) meets the hypotheses of C122, so that only the law about versions is left; C124_never: the zero time. The reader Rfc3339.read is in Services/TimesSpec.lean and shares nothing with the writer."
  },
  {
   "property": "C125",
   "status": "proved",
   "theorems": [
    "Verif.Props.C125_read",
    "Verif.Props.C125_write",
    "Verif.Props.C125_block",
    "Verif.Props.C125_link",
    "Verif.Props.C125_distinct",
    "Verif.Props.C125_empty"
   ],
   "note": "C125_read: the readers over bytes (Cbor/Chains.lean) give what the readers over records give; C125_write; C125_block, C125_link: single records; C125_distinct; C125_empty: nil and empty slices are read alike."
  },
  {
   "property": "C126",
   "status": "proved",
   "theorems": [
    "Verif.Props.C126_read",
    "Verif.Props.C126_write",
    "Verif.Props.C126_name",
    "Verif.Props.C126_put",
    "Verif.Props.C126_spoilt",
    "Verif.Props.C126_version"
   ],
   "note": "C126_read, C126_write, C126_put; C126_name: exactly the UTF-8 names can be read back; C126_spoilt: what one other name would do; C126_version: the text of a version."
  },
  {
   "property": "C127",
   "status": "proved",
   "theorems": [
    "Verif.Props.C127_record",
    "Verif.Props.C127_blocks",
    "Verif.Props.C127_peers",
    "Verif.Props.C127_unlimited"
   ],
   "note": "C127_record, C127_blocks; C127_peers: with bounds on names and scores; C127_unlimited: there is no bound without one on scores. The sizes are those of keys and values as given to LevelDB; its own overhead, compression and log files are not modelled."
  },
  {
   "property": "C128",
   "status": "proved",
   "theorems": [
    "Verif.Props.C128_connection",
    "Verif.Props.C128_one_text",
    "Verif.Props.C128_seed",
    "Verif.Props.C128_print",
    "Verif.Props.C128_bind",
    "Verif.Props.C128_declared",
    "Verif.Props.C128_peer",
    "Verif.Props.C128_dial",
    "Verif.Props.C128_hostile"
   ],
   "note": "netip.ParseAddrPort, AddrPort.String, net.TCPAddr.String and NewTCPAddrFromString are spelled out in Services/AddrPort.lean; C128_seed proves what Services/Params.lean assumes of seeds, realOpts shows that the laws assumed of Opts hold for these functions, C128_dial is for every reachable registry, and C128_hostile is the negative result about MarkAsHostile."
  },
  {
   "property": "C129",
   "status": "proved",
   "theorems": [
    "Verif.Props.C129_names",
    "Verif.Props.C129_states",
    "Verif.Props.C129_apart",
    "Verif.Props.C129_batch",
    "Verif.Props.C129_total"
   ],
   "note": "The names are given in lists of their own, not by the table of positions; the count of C129_batch is stated on the requested ids and the received blocks. The short texts of ids are a parameter."
  },
  {
   "property": "C130",
   "status": "proved",
   "theorems": [
    "Verif.Props.C130_same",
    "Verif.Props.C130_lca",
    "Verif.Props.C130_put",
    "Verif.Props.C130_micro",
    "Verif.Props.C130_ids",
    "Verif.Props.C130_generators",
    "Verif.Props.C130_forks",
    "Verif.Props.C130_fork",
    "Verif.Props.C130_lcb",
    "Verif.Props.C130_sent",
    "Verif.Props.C130_ever"
   ],
   "note": "Every function of chains/storage.go and chains/linkage.go on the way is written once more with a count of the records asked for (Verif/Chains/Work.lean); C130_same proves that the results are those of the functions without a count, for all databases. That the count itself is not too low is C130_lca, _put, _micro, _ids, _generators in terms of DecidedBy, which knows nothing of counting: as many keys decide the answer. For reports with an iteration over the leashes only the count is bounded. Records are counted, not time: what goleveldb does to find one is not modelled, and the sorting and the map in memory are not counted."
  },
  {
   "property": "C131",
   "status": "proved",
   "theorems": [
    "Verif.Loading.C131_once",
    "Verif.Loading.C131_missing",
    "Verif.Loading.C131_messages",
    "Verif.Loading.C131_nothing_new"
   ],
   "note": "About the sessions of C89 (Session in Verif/Loading/Honest.lean: the peer answers honestly, all writes of the loader succeed, no tick comes too late, nobody stores false blocks of the history). A synchronisation that times out begins again and may request blocks again that were on their way; that is no part of one session."
  },
  {
   "property": "C132",
   "status": "proved",
   "theorems": [
    "Verif.Loading.C132_once",
    "Verif.Loading.C132_missing",
    "Verif.Loading.C132_messages",
    "Verif.Loading.C132_nothing_new"
   ],
   "note": "Over the model with single calls (C106), for every moment between two events as the beginning. Messages are recorded when the event that sends them has been handled."
  },
  {
   "property": "C133",
   "status": "proved",
   "theorems": [
    "Verif.Services.Fine.C133_once",
    "Verif.Services.Fine.C133_missing",
    "Verif.Services.Fine.C133_nothing_new",
    "Verif.Services.Fine.C133_messages",
    "Verif.Services.Fine.C133_truthful"
   ],
   "note": "The invariant of C132 carried through the events of the whole program of C105 and C107."
  },
  {
   "property": "C134",
   "status": "proved",
   "theorems": [
    "Verif.Loading.C134_bill",
    "Verif.Loading.C134_ticks",
    "Verif.Loading.C134_times",
    "Verif.Services.Fine.C134_program",
    "Verif.Services.Fine.C134_silence"
   ],
   "note": "The bounds are met by an execution in which a peer lists a block twice. Messages are recorded when the event that sends them has been handled."
  },
  {
   "property": "C135",
   "status": "proved",
   "theorems": [
    "Verif.Services.Fine.C135_causes",
    "Verif.Services.Fine.C135_pings",
    "Verif.Services.Fine.C135_whom",
    "Verif.Services.Fine.C135_total",
    "Verif.Services.Fine.C135_quiet"
   ],
   "note": "That a message is sent at all when there is cause is C66 and C81; this property bounds the output from above. Closings of connections by the network library itself are not modelled."
  },
  {
   "property": "C136",
   "status": "partial",
   "theorems": [
    "Verif.Services.C136_pings_partial",
    "Verif.Services.C136_begun_partial",
    "Verif.Services.C136_list",
    "Verif.Services.C136_loader",
    "Verif.Services.C136_failed_read",
    "Verif.Services.Fine.C136_reads_partial",
    "Verif.Services.Fine.C136_listed_reads_partial",
    "Verif.Services.Fine.C136_begun_late"
   ],
   "note": "Proved of pings and of the beginning of synchronisations with reads that do not fail, and of pings and the list of connections in the program with failing reads and the loader at work if the records can be read when connections break (C136_reads_partial, C136_listed_reads_partial); false of the beginning of a synchronisation when the connection breaks while the loader chooses (C136_begun_late); false of lists of peers and of a running synchronisation (C136_list, C136_loader), and of pings when a read fails (C136_failed_read)."
  },
  {
   "property": "C137",
   "status": "proved",
   "theorems": [
    "Verif.Services.Fine.C137_kept",
    "Verif.Services.Fine.C137_pinged",
    "Verif.Services.Fine.C137_open",
    "Verif.Services.Fine.C137_record",
    "Verif.Services.Fine.C137_listed"
   ],
   "note": "Holds in the program with failing reads and the interleaved loader. What a failed dial of the same address costs is the finding of C83, what a second connection of the same address costs that of C93."
  }
 ]
}
