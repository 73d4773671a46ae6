{"claims":[
{"property": "C01", "status": "proved", "theorems": ["Gears.TokenBucket.C01_total_bound"], "note": "Holds for every history of Acquire calls with a non-decreasing clock."},
{"property": "C02", "status": "proved", "theorems": ["Gears.TokenBucket.C02_burst_bound", "Gears.TokenBucket.C02_naive_burst_bound_violated"], "note": "Proved with the bound of the statement; the naive bound c is refuted by C02_naive_burst_bound_violated."},
{"property": "C03", "status": "proved", "theorems": ["Gears.TokenBucket.C03_reject_needs_capacity_spent", "Gears.TokenBucket.C03_first_calls_succeed"], "note": "A rejection implies that capacity plus all issued tokens have been spent."},
{"property": "C04", "status": "proved", "theorems": ["Gears.TokenBucket.C04_recovers"], "note": "After one second a rejected caller succeeds."},
{"property": "C05", "status": "proved", "theorems": ["Gears.AtomicBucket.C05_sequential_equals_sync", "Gears.AtomicBucket.C05_sequential_terminates"], "note": "Exact equality of decisions with the SyncTokenBucket model for every sequential execution, plus termination of uncontended calls."},
{"property": "C06", "status": "proved", "theorems": ["Gears.AtomicBucket.C06_tokens_le_capacity", "Gears.AtomicBucket.C06_admissions_between_issues"], "note": "Invariant over all interleavings of atomic operations of any number of goroutines, clock non-decreasing."},
{"property": "C07", "status": "partial", "theorems": ["Gears.AtomicBucket.C07_goroutines_bound_partial", "Gears.AtomicBucket.C07_attained_violated", "Gears.AtomicBucket.C07_admission_bound_violated", "Gears.AtomicBucket.C07_admission_bound_partial", "Gears.AtomicBucket.C07_quiescent_bound_partial", "Gears.AtomicBucket.C07_overadmission_is_debt_partial"], "note": "Violated: n goroutines can get c + n*r*S calls in S seconds, for all n, r, S with r*S <= c (C07_attained_violated; C07_admission_bound_violated is a small schedule). Proved: never more than that (C07_goroutines_bound_partial), so the claim holds for a single goroutine; the bound plus pending and rolled-back tokens; over-admission shows up as a negative counter."},
{"property": "C08", "status": "proved", "theorems": ["Gears.SlidingWindow.C08_window_bound"], "note": "For every sequence of clock readings in lock order, sorted or not; also shows that no call panics."},
{"property": "C09", "status": "proved", "theorems": ["Gears.SlidingWindow.C09_exact_log"], "note": "Exact characterisation for non-decreasing clocks."},
{"property": "C10", "status": "proved", "theorems": ["Gears.SlidingWindow.C10_never_panics", "Gears.SlidingWindow.C10_getters", "Gears.SlidingWindow.C10_bound_after_update", "Gears.SlidingWindow.C10_zero_unlimited", "Gears.SlidingWindow.C10_new_unlimited", "Gears.SlidingWindow.C10_exact_log"], "note": "No panic, getters, bound after the last reconfiguration, and capacity 0 = unlimited."},
{"property": "C11", "status": "partial", "theorems": ["Gears.FixedWindow.C11_interval_bound_partial", "Gears.FixedWindow.C11_interval_bound_any_start", "Gears.FixedWindow.C11_interval_bound_violated"], "note": "Float64 rounding of the first computed interval end breaks the claim (C11_interval_bound_violated, real timestamps). Proved for first readings not within 2.049us of a boundary and gaps below 52 days; for any first reading at most one extra admission (C11_interval_bound_any_start)."},
{"property": "C12", "status": "partial", "theorems": ["Gears.FixedWindow.C12_burst_bound_partial", "Gears.FixedWindow.C12_burst_attained", "Gears.FixedWindow.C12_violated", "Gears.FixedWindow.C12_burst_bound_any_start"], "note": "Violated by float64 rounding of the first interval end (C12_violated: three admissions with capacity 1 within less than a window). Proved under the clock condition of C11; attained for every capacity and window; for any first reading at most one more (C12_burst_bound_any_start)."},
{"property": "C13", "status": "partial", "theorems": ["Gears.FixedWindow.C13_reject_iff_used_up_partial", "Gears.FixedWindow.C13_violated", "Gears.FixedWindow.C13_reject_any_start"], "note": "Violated by float64 rounding of the first interval end (C13_violated: a rejection in an interval without admissions). Proved as an iff under the clock condition of C11; for any first reading and windows of at least 2.049us a rejection implies c admissions in the interval and its predecessor together (C13_reject_any_start)."},
{"property": "C14", "status": "partial", "theorems": ["Gears.FixedWindow.C14_float_exact_partial", "Gears.FixedWindow.C14_float_exact_large_partial", "Gears.FixedWindow.C14_reset_partial", "Gears.FixedWindow.C14_float_exact_violated"], "note": "Exact below 2^53 ns, and in the whole int64 range away from interval ends; violated for a realistic first request."},
{"property": "C15", "status": "proved", "theorems": ["Gears.TtlRedis.C15_block_lasts"], "note": "Any starting database, any intermediate calls by any limiters, any key and usable parameters."},
{"property": "C16", "status": "proved", "theorems": ["Gears.TtlRedis.C16_block_has_cause", "Gears.TtlRedis.C16_released"], "note": "Statement amended to 'strictly later than T+e', which is when redis expires a key."},
{"property": "C17", "status": "proved", "theorems": ["Gears.TtlRedis.C17_admission"], "note": "Under w < 2e (otherwise the list may expire inside the window), a fixed client/redis clock offset, and list keys distinct from block keys."},
{"property": "C18", "status": "partial", "theorems": ["Gears.TtlRedis.C18_results_partial", "Gears.TtlRedis.C18_ttl_zero_violated", "Gears.TtlRedis.C18_triggers_once_partial"], "note": "TTL can be 0 in the last half second of a block (C18_ttl_zero_violated). Proved: results are legal with ttl >= 0, a trigger has ttl = timeout > 0, and no second trigger before the timeout is over."},
{"property": "C19", "status": "partial", "theorems": ["Gears.TtlRedis.C19_exact_partial", "Gears.TtlRedis.C19_keys_exact_partial", "Gears.TtlRedis.C19_shouldBlock_exact_partial", "Gears.TtlRedis.C19_isolation_partial", "Gears.TtlRedis.C19_keys_partial", "Gears.TtlRedis.C19_collision_violated"], "note": "Distinct API keys can collide as redis keys (C19_collision_violated). Proved: non-interference for groups of disjoint redis keys; and exactly: two pairs of API keys do not influence each other iff key, key' and block keys differ and no block key is _rl:x while the other key is x:bl (C19_keys_exact_partial; C19_exact_partial across hash tags; C19_shouldBlock_exact_partial for ShouldBlock)."},
{"property": "C20", "status": "partial", "theorems": ["Gears.TtlRedis.C20_cluster_blind_violated", "Gears.TtlRedis.C20_isBlocked_agrees_partial", "Gears.TtlRedis.C20_cluster_violated", "Gears.TtlRedis.C20_shouldBlock", "Gears.TtlRedis.C20_isBlocked_reads_only"], "note": "IsBlocked ignores the hash tag in cluster mode: it never reports a block of a limiter for a cluster (C20_cluster_violated, C20_cluster_blind_violated, for all histories); proved for standalone mode, when the block key does not hold a list."},
{"property": "C21", "status": "proved", "theorems": ["Gears.TtlRedis.C21_unset_passes", "Gears.TtlRedis.C21_errors_pass", "Gears.TtlRedis.C21_down_passes"], "note": "Unset parameters, error replies and an unreachable redis all let the request pass."},
{"property": "C22", "status": "partial", "theorems": ["Gears.TtlRedis.C22_same_slot_partial", "Gears.TtlRedis.C22_braces_violated", "Gears.TtlRedis.C22_empty_tag_violated"], "note": "Proved for keys without '{' and a non-empty trimmed tag, with CRC16 as in the redis specification; braces or an empty tag break it."},
{"property": "C23", "status": "proved", "theorems": ["Gears.CircuitBreaker.C23_sequential", "Gears.CircuitBreaker.C23_initially_closed"], "note": "All thresholds, timeouts, outcomes (including panics) and clock readings; the sequential model is shown to be a schedule of the concurrent one."},
{"property": "C24", "status": "proved", "theorems": ["Gears.CircuitBreaker.C24_callbacks", "Gears.CircuitBreaker.C24_counts"], "note": "Each call's event trace is always a prefix of one of the four complete courses, in every interleaving."},
{"property": "C25", "status": "proved", "theorems": ["Gears.CircuitBreaker.C25_concurrent_decisions", "Gears.CircuitBreaker.C25_decides"], "note": "Completion order is the order in which outcomes are recorded under the lock."},
{"property": "C26", "status": "partial", "theorems": ["Gears.CircuitBreaker.C26_stays_open_violated", "Gears.CircuitBreaker.C26_stays_open_partial", "Gears.CircuitBreaker.C26_stays_open_quiet_partial"], "note": "Violated by a late success of a call started before the breaker opened (C26_stays_open_violated). Proved when no success is recorded in between, in particular when no task is in flight at the refusal; threshold >= 1."},
{"property": "C27", "status": "proved", "theorems": ["Gears.CircuitBreaker.C27_never_open"], "note": "Case analysis over task outcomes, including a panic."},
{"property": "C28", "status": "proved", "theorems": ["Gears.Sema.C28_chan_bound", "Gears.Sema.C28_lock_bound", "Gears.Sema.C28_chan_new"], "note": "Any number of permits and any schedule; a negative number makes NewChanSemaphore panic and makes LockSemaphore act like 0."},
{"property": "C29", "status": "proved", "theorems": ["Gears.Sema.C29_chan_over_release", "Gears.Sema.C29_lock_over_release", "Gears.Sema.C29_chan_zero_permits"], "note": "Bisimulation up to the log; ChanSemaphore needs permits >= 1 as stated (C29_chan_zero_permits shows why)."},
{"property": "C30", "status": "proved", "theorems": ["Gears.Sema.C30_chan_try", "Gears.Sema.C30_lock_try"], "note": "TryAcquire is one always-enabled step; its result is exact with respect to the observable log."},
{"property": "C31", "status": "proved", "theorems": ["Gears.Sema.C31_lock_no_sleeper", "Gears.Sema.C31_lock_available_served", "Gears.Sema.C31_lock_release_serves", "Gears.Sema.C31_chan_no_sleeper", "Gears.Sema.C31_chan_release_serves"], "note": "Safety form of no-lost-wakeup: no sleeper while a permit is available; a release lets a blocked caller finish in its next step."},
{"property": "C32", "status": "partial", "theorems": ["Gears.Sema.C32_chan_behaviour_of_lock", "Gears.Sema.C32_same_results", "Gears.Sema.C32_barging_violated"], "note": "Every ChanSemaphore behaviour is a LockSemaphore behaviour, and the results agree exactly for non-waiting operation sequences; the converse fails because the LockSemaphore allows barging (C32_barging_violated)."},
{"property": "C33", "status": "proved", "theorems": ["Gears.Bus.C33_subsequence"], "note": "Any number of senders/readers, registrations, closes; at most one dispatcher goroutine (as the property says)."},
{"property": "C34", "status": "proved", "theorems": ["Gears.Bus.C34_block_complete", "Gears.Bus.C34_nothing_lost"], "note": "For any number of dispatchers: per dispatcher, deliveries to a Block receiver are exactly the completed dispatches begun while it was registered, in order; plus everything delivered is read or still buffered."},
{"property": "C35", "status": "proved", "theorems": ["Gears.Bus.C35_no_send_on_closed", "Gears.Bus.C35_bus_close_section"], "note": "Any number of dispatchers; also the critical section of FanOutBus.Close never closes a channel twice."},
{"property": "C36", "status": "proved", "theorems": ["Gears.Bus.C36_drop_only_when_full", "Gears.Bus.C36_enabled", "Gears.Bus.C36_completes", "Gears.Bus.C36_lock"], "note": "Own steps of the dispatcher are always enabled and it completes after rem.length+1 of them; a drop needs a full buffer and no parked reader. Fairness of the Go scheduler and the RWMutex is not modelled."},
{"property": "C37", "status": "proved", "theorems": ["Gears.Bus.C37_close", "Gears.Bus.C37_readable", "Gears.Bus.C37_woken"], "note": "At the return of Close; receivers made by NewRecv after Close are outside the statement. Close ends exactly the receives that wait on the channel of a registered receiver (C37_woken)."},
{"property": "C38", "status": "partial", "theorems": ["Gears.Bus.C38_same_name_violated", "Gears.Bus.C38_twice_violated", "Gears.Bus.C38_full_violated", "Gears.Bus.C38_close_partial", "Gears.Bus.C38_woken"], "note": "Violated by the code: closing a receiver whose name was reused closes the newer receiver; closing twice panics with the lock held. Proved for receivers that are still registered. The receives that a Close of a receiver ends are exactly those that wait on the channel that it closes (C38_woken)."},
{"property": "C39", "status": "proved", "theorems": ["Gears.Bus.C39_drain", "Gears.Bus.C39_drain_concurrent"], "note": "Sequential Drain exact and terminating; also with concurrent activity Drain returns exactly the events it read."},
{"property": "C40", "status": "partial", "theorems": ["Gears.Bus.C40_full_violated", "Gears.Bus.C40_collect_partial"], "note": "Violated by the code: on a closed receiver CollectTimeout appends nil values. Proved: events in order followed by nils, no nils while the receiver is open."},
{"property": "C41", "status": "proved", "theorems": ["Gears.Schedule.C41_start", "Gears.Schedule.C41_stop", "Gears.Schedule.C41_once", "Gears.Schedule.C41_start_returns"], "note": "Step-level exact results for every reachable state of both task types, at most one success of each over every execution, and Start never hangs."},
{"property": "C42", "status": "proved", "theorems": ["Gears.Schedule.C42_sequential", "Gears.Schedule.C42_no_overlap"], "note": "The log of job starts and ends is always a prefix of start 1, end 1, start 2, end 2, ..."},
{"property": "C43", "status": "proved", "theorems": ["Gears.Schedule.C43_interval"], "note": "Timers fire at their deadline or any time later; clock non-decreasing."},
{"property": "C44", "status": "partial", "theorems": ["Gears.Schedule.C44_violated", "Gears.Schedule.C44_pending_partial", "Gears.Schedule.C44_delay_partial"], "note": "Violated for both task types: the consumer may have passed the status check before Stop (C44_violated). Proved: only jobs already submitted start after Stop; for a FixedDelayTask at most one, and none if a job is running at Stop."},
{"property": "C45", "status": "proved", "theorems": ["Gears.Schedule.C45_stop", "Gears.Schedule.C45_timeout", "Gears.Schedule.C45_deadline", "Gears.Schedule.C45_deadline_const", "Gears.Schedule.C45_waits", "Gears.Schedule.C45_not_before"], "note": "Both enabledness of the cancelling step and the absence of early cancels; deadline = begin of runJob + timeout."},
{"property": "C46", "status": "proved", "theorems": ["Gears.Schedule.C46_bound", "Gears.Schedule.C46_submission", "Gears.Schedule.C46_job_starts"], "note": "Ticks are those received by the provider; the ticker period itself is not modelled (it may fire at any time)."},
{"property": "C47", "status": "proved", "theorems": ["Gears.Schedule.C47_can_finish", "Gears.Schedule.C47_not_blocked", "Gears.Schedule.C47_terminates"], "note": "Progress, reachability of the quiet state, and termination of every schedule, given that job functions return."},
{"property": "C48", "status": "proved", "theorems": ["Gears.TaskManager.C48_unique", "Gears.TaskManager.C48_dup", "Gears.TaskManager.C48_register", "Gears.TaskManager.C48_unregister", "Gears.TaskManager.C48_unregisterAll", "Gears.TaskManager.C48_unregisterAll_enabled", "Gears.TaskManager.C48_again", "Gears.TaskManager.C48_history"], "note": "Exact effects per call in every reachable state, with other goroutines starting and stopping tasks meanwhile, plus a characterisation over histories."},
{"property": "C49", "status": "partial", "theorems": ["Gears.TaskManager.C49_violated", "Gears.TaskManager.C49_partial", "Gears.TaskManager.C49_blocks_name"], "note": "Violated: a panic of MustStart leaves the name registered (C49_violated, C49_blocks_name). Proved: an error leaves everything unchanged, a panic changes nothing but the name."},
{"property": "C50", "status": "proved", "theorems": ["Gears.Conf.C50_naming", "Gears.Conf.C50_separators"], "note": "All byte strings; words is a separate declarative splitter."},
{"property": "C51", "status": "proved", "theorems": ["Gears.Conf.C51_env_of_flag", "Gears.Conf.C51_alphabet"], "note": "All byte strings."},
{"property": "C52", "status": "partial", "theorems": ["Gears.Conf.C52_flag", "Gears.Conf.C52_env_partial", "Gears.Conf.C52_env_violated", "Gears.Conf.C52_nonascii_violated"], "note": "Flag names: exact for paths of exported (ASCII upper-case initial) names. Env names: violated through underscores in names (C52_env_violated), proved for names without underscore. Names with a non-ASCII capital first letter get no word break (C52_nonascii_violated)."},
{"property": "C53", "status": "partial", "theorems": ["Gears.Conf.C53_alloc_partial", "Gears.Conf.C53_frame", "Gears.Conf.C53_new", "Gears.Conf.C53_idempotent", "Gears.Conf.C53_double_pointer_violated", "Gears.Conf.C53_double_pointer"], "note": "Proved for every pointer held by a field; violated for the inner pointer of a pointer to a pointer, which stays nil (C53_double_pointer). Values are trees (no aliasing)."},
{"property": "C54", "status": "proved", "theorems": ["Gears.Conf.C54_visit", "Gears.Conf.C54_path", "Gears.Conf.C54_after_init"], "note": "All values; paths for non-empty field names; after initStruct no field is missed because of a nil pointer."},
{"property": "C55", "status": "partial", "theorems": ["Gears.Conf.C55_partial", "Gears.Conf.C55_replaced", "Gears.Conf.C55_args_unique", "Gears.Conf.C55_violated"], "note": "Violated when yaml replaces a pointer (e.g. `a: null`): the flag then sets a detached variable. Proved for all other fields, with the Go flag package modelled concretely; value parsing and yaml decoding are parameters."},
{"property": "C56", "status": "partial", "theorems": ["Gears.Conf.C56_partial", "Gears.Conf.C56_violated"], "note": "Violated for self-referential types. Proved: an exact characterisation of termination (accessibility of the pointer relation between types)."},
{"property": "C57", "status": "proved", "theorems": ["Gears.Confstore.C57_reads"], "note": "By induction over all histories, with loads of arbitrary pairs and outside changes of the redis hash as further operations; the history is stated as a log of accepted operations."},
{"property": "C58", "status": "proved", "theorems": ["Gears.Confstore.C58_views"], "note": "In every state reachable by a history of whole operations; for interleavings see C66."},
{"property": "C59", "status": "partial", "theorems": ["Gears.Confstore.C59_partial", "Gears.Confstore.C59_empty_key_violated"], "note": "Violated for the empty key, whose update is silently ignored (C59_empty_key_violated). Proved for all other keys. What Update returns if saving fails is C60_lost_error_violated."},
{"property": "C60", "status": "partial", "theorems": ["Gears.Confstore.C60_never_persisted_violated", "Gears.Confstore.C60_rejected_persisted_violated", "Gears.Confstore.C60_lost_error_violated", "Gears.Confstore.C60_partial"], "note": "Violated: the condition at store.go:128 is inverted, so accepted updates are never persisted, rejected ones are, and their error is lost if saving fails. Proved: the effect in memory."},
{"property": "C61", "status": "partial", "theorems": ["Gears.Confstore.C61_errors", "Gears.Confstore.C61_applied", "Gears.Confstore.C61_persisted_partial", "Gears.Confstore.C61_duplicate_violated", "Gears.Confstore.C61_save", "Gears.Confstore.C61_empty_key_violated", "Gears.Confstore.C61_save_error_violated"], "note": "Errors and effect in memory proved for all batches. Persistence violated for a key with an accepted and a rejected value, for the empty key, and save errors are dropped; proved when no such pairs are in the batch."},
{"property": "C62", "status": "proved", "theorems": ["Gears.Confstore.C62_reset"], "note": "All states, any later load in any order."},
{"property": "C63", "status": "partial", "theorems": ["Gears.Confstore.C63_register", "Gears.Confstore.C63_deregister", "Gears.Confstore.C63_unknown_partial", "Gears.Confstore.C63_unknown_violated"], "note": "Registration and deregistration proved; 'no-op for unknown keys' is violated with respect to the persister, whose entry is deleted (C63_unknown_violated), and proved for the store."},
{"property": "C64", "status": "proved", "theorems": ["Gears.Confstore.C64_load"], "note": "Any order of the pairs."},
{"property": "C65", "status": "proved", "theorems": ["Gears.Confstore.C65_spacing", "Gears.Confstore.C65_retry", "Gears.Confstore.C65_always", "Gears.Confstore.C65_not_skipped"], "note": "All call times with a clock that does not go back; DoLoad runs under a lock, so calls are sequential."},
{"property": "C66", "status": "partial", "theorems": ["Gears.Confstore.C66_views_partial", "Gears.Confstore.C66_unregistered_violated", "Gears.Confstore.C66_processor_violated", "Gears.Confstore.C66_partial"], "note": "Violated by a deregistration between the two critical sections of UpdateNoPersist (C66_unregistered_violated, C66_processor_violated). Proved: the two views always belong together with respect to a processor the key was registered with; and, without such deregistrations, every interleaving is equivalent to a history of whole operations."},
{"property": "C67", "status": "proved", "theorems": ["Gears.Procs.C67_int", "Gears.Procs.C67_int_predefined", "Gears.Procs.C67_bool", "Gears.Procs.C67_string", "Gears.Procs.C67_enum", "Gears.Procs.C67_parsed"], "note": "strconv.Atoi modelled concretely (both paths, with machine arithmetic). Duration, URL and key processors for arbitrary parsers."},
{"property": "C68", "status": "partial", "theorems": ["Gears.Procs.C68_violated", "Gears.Procs.C68_partial"], "note": "Violated: the regular expression is not anchored. Proved: accepted are exactly the empty string and strings containing a color."},
{"property": "C69", "status": "proved", "theorems": ["Gears.Confs.C69_text"], "note": "The printed text does not change with user name and password, for all six configurations."},
{"property": "C70", "status": "partial", "theorems": ["Gears.Confs.C70_violated", "Gears.Confs.C70_open_violated", "Gears.Confs.C70_partial"], "note": "Violated: MaxOpenConns is never printed; MaxIdleConns is printed twice. Partial: MaxIdleConns can be read off the text when the other fields are given."},
{"property": "C71", "status": "proved", "theorems": ["Gears.Confs.C71_params", "Gears.Confs.C71_items", "Gears.Confs.C71_order"], "note": "Items, unescaping (an inductive relation) and order of computed options, customizer and Params; every Params text is covered since it splits into items in exactly one way."},
{"property": "C72", "status": "proved", "theorems": ["Gears.Confs.C72_fasthttp", "Gears.Confs.C72_reachable", "Gears.Confs.C72_others", "Gears.Confs.C72_gin"], "note": "fasthttp: runs iff both are configured, free of colons, and the decoded header is user:password. gin: the header of the configured credentials only. Base64 is modelled and its round trip is proved."},
{"property": "C73", "status": "partial", "theorems": ["Gears.Confs.C73_violated", "Gears.Confs.C73_custom_violated", "Gears.Confs.C73_partial", "Gears.Confs.C73_certificates"], "note": "Violated: mode CUSTOM without client certificate builds the pool of certificates but drops it, the client uses the host roots. Partial: honoured in all other cases."},
{"property": "C74", "status": "partial", "theorems": ["Gears.Confs.C74_violated", "Gears.Confs.C74_partial"], "note": "Violated: MaxConnsPerHost is written to MaxIdleConnsPerHost, MaxIdleConnsPerHost to MaxIdleConns, and connections per host stay unlimited. The partial theorem says what the fields get."},
{"property": "C75", "status": "partial", "theorems": ["Gears.Confs.C75_partial", "Gears.Confs.C75_violated"], "note": "Violated: user, password, database and option names are not escaped; values with commas are split. Partial: for plain values (characters listed in the structure Plain) the parsed URL has all configured values, for every map order. net/url is modelled without IPv6 hosts and percent-encoded hosts. Keys may have any characters but controls and #%&+;=. C122 has the full net/url grammar and the driver."},
{"property": "C76", "status": "partial", "theorems": ["Gears.Rsa.C76_normalize", "Gears.Rsa.C76_violated", "Gears.Rsa.C76_partial"], "note": "Idempotent, and texts with both marks are kept. Violated: a text with only one of the marks gets a second one of this kind. Partial: a text without marks gets exactly one pair."},
{"property": "C77", "status": "partial", "theorems": ["Gears.Rsa.C77_ecdsa_violated", "Gears.Rsa.C77_ed25519_violated", "Gears.Rsa.C77_partial", "Gears.Rsa.C77_texts", "Gears.Rsa.C77_violated"], "note": "Violated: ReadPublicKeyBytes panics for a well-formed public key that is not RSA (unchecked type assertion); with the parsers modelled, for the text of every Ed25519 key (C77_ed25519_violated) and of every ECDSA key of the four curves (C77_ecdsa_violated). Partial: exact results for all other cases, arbitrary PEM decoder and X.509 parsers."},
{"property": "C78", "status": "partial", "theorems": ["Gears.Skywalking.C78_violated", "Gears.Skywalking.C78_partial", "Gears.Skywalking.C78_spans", "Gears.Skywalking.C78_panic_violated", "Gears.Skywalking.C78_marks"], "note": "Violated: the middleware returns nil when the chain returned an error, and leaves the span open when a handler panics. Proved: spans are closed exactly once for all chains without panic, marks, and transparency without errors."},
{"property": "C79", "status": "partial", "theorems": ["Gears.Skywalking.C79_names", "Gears.Skywalking.C79_violated", "Gears.Skywalking.C79_partial"], "note": "Violated only for errors with an empty text: pipelines whose failures all have empty texts are not marked, and leading empty texts are dropped. Partial: non-empty error texts."},
{"property": "C80", "status": "partial", "theorems": ["Gears.Skywalking.C80_client", "Gears.Skywalking.C80_violated", "Gears.Skywalking.C80_partial"], "note": "Client helper proved. Violated for the redis hook: it uses the span without looking at the error, a nil dereference when no span can be created (for instance without WithAddr). Partial: when the span can be created."},
{"property": "C81", "status": "proved", "theorems": ["Gears.Conf.C81_panic"], "note": "initStruct is assumed to have terminated (C56). The Go version (before or since 1.17) is a parameter."},
{"property": "C82", "status": "proved", "theorems": ["Gears.Conf.C82_conf", "Gears.Conf.C82_exit"], "note": "Value parsing and yaml decoding are parameters; -h/-help counts as exit. C82_conf: the same for Load of a struct, with the fields, flags and variables by their names."},
{"property": "C83", "status": "proved", "theorems": ["Gears.Confstore.C83_batch", "Gears.Confstore.C83_must"], "note": "All states and lists, for loads that change nothing."},
{"property": "C84", "status": "proved", "theorems": ["Gears.Confs.C84_roundtrip"], "note": "QueryEscape and QueryUnescape are modelled and their round trip is proved."},
{"property": "C85", "status": "proved", "theorems": ["Gears.Confs.C85_pool", "Gears.Confs.C85_endpoints"], "note": "sql.DB limits are modelled after database/sql; the mysql driver's own DSN formatting is not."},
{"property": "C86", "status": "proved", "theorems": ["Gears.Rsa.C86_roundtrip"], "note": "encoding/pem and base64 are modelled and their round trip is proved; the X.509 round trip of the key is the hypothesis."},
{"property": "C87", "status": "proved", "theorems": ["Gears.Rsa.C87_bare", "Gears.Rsa.C87_insert"], "note": "For any retry behaviour of pem.Decode and any parsers."},
{"property": "C88", "status": "partial", "theorems": ["Gears.Skywalking.C88_violated", "Gears.Skywalking.C88_partial", "Gears.Skywalking.C88_once"], "note": "Violated: since the middleware swallows the error, Context.Next of the router goes on with the handler behind the failing one (witness: a handler behind an authorization check runs). Partial: without created spans, or without errors. Context.Next of fasthttp-routing is modelled from its source."},
{"property": "C89", "status": "partial", "theorems": ["Gears.Conf.C89_load_partial", "Gears.Conf.Yaml.C89_violated"], "note": "End to end: initStruct, visit, naming, flags, env, yaml composed (loadConf). Violated: fields whose variable yaml.Unmarshal replaces lose flag and env (C89_violated, with the yaml decoder of C107). Partial: all other fields."},
{"property": "C90", "status": "proved", "theorems": ["Gears.Conf.C90_panic", "Gears.Conf.C90_clash"], "note": "Composition of C50, C54 and C81, for all identifiers as field names. C90_clash: when names clash (C52)."},
{"property": "C91", "status": "proved", "theorems": ["Gears.Skywalking.C91_private", "Gears.Skywalking.C91_by_option"], "note": "Hook and client helper; the texts used by the middleware are in C78_marks.  For pipelines, independence of the error texts needs non-empty texts (C79: a pipeline whose errors have empty texts is not marked)."},
{"property": "C92", "status": "partial", "theorems": ["Gears.Bus.C92_stuck_violated", "Gears.Bus.C92_violated", "Gears.Bus.C92_partial"], "note": "Violated: a dispatcher holds the lock while it waits for a Block receiver with a full buffer, so that no receiver (not even this one) and not the bus can be closed until somebody reads from it (C92_stuck_violated, for every such state and every schedule). Partial: a bound on the steps of the dispatchers, and the only reason to wait is a full Block receiver without reader. The lock's writer preference enters as the hypothesis that no further dispatcher takes the read lock; no goroutine died holding the lock (C38)."},
{"property": "C93", "status": "partial", "theorems": ["Gears.Confstore.Deadlock.C93_stuck_violated", "Gears.Confstore.Deadlock.C93_violated", "Gears.Confstore.Deadlock.C93_partial", "Gears.Confstore.Panics.C93_builtin"], "note": "Violated: kvLock is not released when Convert panics in UpdateNoPersist (C93_violated; C93_stuck_violated: for good). Proved for all other courses, panics elsewhere included, with Go's RWMutex (writer preference, readers let in at Unlock) and a generic theorem on lock order (Verif/Common/Locks.lean). A ValueProcessor, persister or policy that itself calls the store is not covered. C93_builtin: with the processors of procs.go no Convert panics, so all calls complete."},
{"property": "C94", "status": "partial", "theorems": ["Gears.Confstore.C94_violated", "Gears.Confstore.C94_stays_violated", "Gears.Confstore.C94_partial"], "note": "Violated: a load that read redis before the reset writes the old value back into memory, and no later load removes it (C94_violated, C94_stays_violated). Proved when no load in progress has read the key."},
{"property": "C95", "status": "proved", "theorems": ["Gears.Duration.C95_accepted", "Gears.Duration.C95_complete"], "note": "time.ParseDuration of Go 1.17 concretely, with int64 wrap-around, the truncation of long fractions and the float64 product for the fraction. Near the upper end of the range (last 1.01 ns per term with fraction) acceptance is not decided."},
{"property": "C96", "status": "partial", "theorems": ["Gears.Duration.C96_partial", "Gears.Duration.C96_violated"], "note": "Violated for -2^63 ns only (ParseDuration before Go 1.18); proved for all others, through the processor."},
{"property": "C97", "status": "partial", "theorems": ["Gears.Confs.Mysql.C97_roundtrip", "Gears.Confs.Mysql.C97_partial", "Gears.Confs.Mysql.C97_characters_violated", "Gears.Confs.Mysql.C97_dropped_violated", "Gears.Confs.Mysql.C97_violated"], "note": "FormatDSN and ParseDSN of go-sql-driver/mysql v1.6.0 concretely, with durations (C95/C96), query escaping (C84), SplitHostPort. Violated for users with ':', databases with '/' or '?', (for all of them, C97_characters_violated), for passwords without user and negative timeouts (C97_dropped_violated). Partial: holds for all others, any password included, with hosts without ':' or IPv6 in brackets and Params without '/' or a name that is a setting of the driver. Locations are assumed to load by their names."},
{"property": "C98", "status": "partial", "theorems": ["Gears.TokenBucket.C98_total_bound", "Gears.TokenBucket.C98_exact_partial", "Gears.TokenBucket.C98_violated", "Gears.TokenBucket.C98_max_rate_violated", "Gears.SlidingWindow.C98_sliding"], "note": "The bound of C01 holds in 64-bit arithmetic for all capacities and rates; the sliding window is unaffected for all clock readings since 1970. Partial: the token bucket decides as the exact one while capacity + rate*seconds < 2^63. Violated for larger rates: with rate 2^62 two idle seconds leave the number of tokens negative (C98_violated), with the greatest rate any even number of idle seconds not below the capacity does (C98_max_rate_violated)."},
{"property": "C99", "status": "partial", "theorems": ["Gears.Skywalking.C99_reporter", "Gears.Skywalking.C99_partial", "Gears.Skywalking.C99_plain_partial", "Gears.Skywalking.C99_violated", "Gears.Skywalking.C99_names_violated"], "note": "go2sky.NewTracer v1.4.0 concretely. Violated: NewGrpcOrNoopReporter accepts a nil configuration, NewTracer dereferences it; namespace a::b with service c and namespace a with service b::c have the same name. Partial: a service is confused with no other exactly if its name has no other place with two adjacent colons; namespaces without colons are safe."},
{"property": "C100", "status": "partial", "theorems": ["Gears.Testutil.C100_no_panic", "Gears.Testutil.C100_partial", "Gears.Testutil.C100_nil_exit_violated", "Gears.Testutil.C100_violated"], "note": "Violated: panic(nil) passes ShouldNotPanic (recover returns nil), functions that end the goroutine pass all helpers. Partial: exact for functions that return or panic with a value."},
{"property": "C101", "status": "partial", "theorems": ["Gears.Dto.C101_partial", "Gears.Dto.C101_null", "Gears.Dto.C101_unique", "Gears.Dto.C101_error", "Gears.Dto.C101_violated"], "note": "encoding/json of Go 1.17 as lexer and automaton, proved sound and complete for a grammar of JSON texts (RFC 8259) with their meaning. Violated: null gives a nil map and no error (assigning to it panics). Partial: a map is returned exactly for objects, nil exactly for null, everything else is an error."},
{"property": "C102", "status": "partial", "theorems": ["Gears.Dto.C102_seen", "Gears.Dto.C102_deep", "Gears.Dto.C102_partial", "Gears.Dto.C102_writes", "Gears.Dto.C102_order", "Gears.Dto.C102_nil", "Gears.Dto.C102_stable", "Gears.Dto.C102_changes", "Gears.Dto.C102_violated", "Gears.Dto.C102_tower"], "note": "Float64 text and parser are parameters, with the law that they are inverse, which holds for those of strconv and encoding/json (C119_json). Violated: integers come back as floats, nil slices and nil maps as nil, bytes that are not UTF-8 as U+FFFD, more than 10000 levels are written but not read. Partial: what every value becomes, and it stays the same iff it consists of the types UnmarshalM makes, is UTF-8 and not too deep; the text does not depend on the order of iteration; texts that were read are stable."},
{"property": "C103", "status": "proved", "theorems": ["Gears.Conf.C103_int", "Gears.Conf.C103_uint", "Gears.Conf.C103_bool", "Gears.Conf.C103_unique", "Gears.Conf.C103_decimal", "Gears.Conf.C103_load"], "note": "Package flag's Set methods with strconv.ParseInt/ParseUint (base 0, 64 bits, wrapping arithmetic and cutoff, underscores) and ParseBool, against the grammar of Go integer literals. The texts of floats are a parameter here, and C119_field for float64; durations are C95/C96. C103_load combines this with Load (fields whose variable yaml replaced are excepted there, as in C89). Note that 010 is 8 and 08 is refused."},
{"property": "C104", "status": "proved", "theorems": ["Gears.Dto.C104_safe", "Gears.Dto.C104_html"], "note": "The encoder of C102, with the texts of floats being JSON numbers; stated on the sequence of characters of the text."},
{"property": "C105", "status": "proved", "theorems": ["Gears.TtlRedis.Lua.C105_compile", "Gears.TtlRedis.Lua.C105_should", "Gears.TtlRedis.Lua.C105_isBlocked", "Gears.TtlRedis.Lua.C105_run", "Gears.TtlRedis.Lua.C105_no_panic", "Gears.TtlRedis.Lua.C105_doc"], "note": "Lexer, parser and interpreter for the part of Lua the scripts use, with the redis commands on stored strings; the texts are those of the source line by line. The arithmetic of Lua is a parameter with laws for numbers up to 2^53; ieee of C128 (doubles as redis uses them) satisfies the laws. Beyond 2^52 see C128. C105_should and C105_run assume lists of decimal numbers, as the limiter stores them; C105_no_panic assumes nothing about the database. C105_doc assumes that list key and block key differ and hold values of their type."},
{"property": "C106", "status": "partial", "theorems": ["Gears.TtlRedis.Load.C106_digests", "Gears.TtlRedis.Load.C106_answer", "Gears.TtlRedis.Load.C106_partial", "Gears.TtlRedis.Load.C106_open", "Gears.TtlRedis.Load.C106_violated", "Gears.TtlRedis.Load.C106_half"], "note": "Script caches, EVALSHA with NOSCRIPT, the global variables; SHA-1 is concrete and the digests of both scripts are computed by the kernel. Violated: the code never loads a script again, so after SCRIPT FLUSH or a restart of redis every call passes. Partial: without a flush of that server the claim holds; C106_answer says for every history which calls count as made while redis is down; C106_half: if the second load fails, IsBlocked never sees a block. Assumed: nobody loads a different script with the same SHA-1."},
{"property": "C107", "status": "partial", "theorems": ["Gears.Conf.Yaml.C107_effect", "Gears.Conf.Yaml.C107_path_partial", "Gears.Conf.Yaml.C107_load", "Gears.Conf.Yaml.C107_violated", "Gears.Conf.Yaml.C107_same"], "note": "yaml.v3's decoder on node trees (the text of the file is not parsed; no anchors, merge keys, explicit tags). C107_effect: every variable is as the file says, going down file and struct in step; C107_load: the same after Load; C107_same: what the variables held does not matter. Violated: an embedded struct without the tag inline is looked up under its own name, which flags leave out. Partial: embedded structs inlined."},
{"property": "C108", "status": "partial", "theorems": ["Gears.Conf.Yaml.C108_fits", "Gears.Conf.Yaml.C108_total_partial", "Gears.Conf.Yaml.C108_load", "Gears.Conf.Yaml.C108_violated", "Gears.Conf.Yaml.C108_same"], "note": "C108_fits: accepted iff it fits (an inductive definition). Violated: fields such as Ab and AB have different flags but the same yaml key, and yaml panics for every mapping. Partial: structs with different keys and without nil pointers (initStruct allocates them) decode without panic. C108_load: Load returns iff flags and environment are acceptable and the file is empty or fits."},
{"property": "C109", "status": "partial", "theorems": ["Gears.Conf.Yaml.C109_int", "Gears.Conf.Yaml.C109_range", "Gears.Conf.Yaml.C109_quoted", "Gears.Conf.Yaml.C109_same_partial", "Gears.Conf.Yaml.C109_violated", "Gears.Conf.Yaml.C109_differ", "Gears.Strconv.C109_float_partial", "Gears.Strconv.C109_float_violated"], "note": "Violated for float64: 010 is ten for a flag and eight in a yaml file. Proved for all other types; C109_int: integer texts of flags are all accepted in yaml; C109_differ: texts that only one of the two accepts (1 for bool, 0 for durations, yes). C109_range, C109_quoted: integers out of range are refused; quoted scalars are texts. C109_float_partial: with strconv's floats, a text that both accept differs exactly if it is an octal integer of eight or more, or minus zero; C109_float_violated shows both."},
{"property": "C110", "status": "proved", "theorems": ["Gears.Bus.C110_panics", "Gears.Bus.C110_conserve", "Gears.Bus.C110_ended", "Gears.Bus.C110_all_dispatched", "Gears.Bus.C110_bound", "Gears.Bus.C110_progress"], "note": "C110_panics: over the list of actions; C110_conserve: multiset equation, any number of dispatchers; C110_ended, C110_all_dispatched: what holds once dispatchers have ended; C110_bound, C110_progress: they end."},
{"property": "C111", "status": "proved", "theorems": ["Gears.Confstore.C111_read", "Gears.Confstore.C111_batch", "Gears.Confstore.C111_must"], "note": "The persisted values do not change between the loads of one batch (the persister is a shared map; C62/C64 treat writes)."},
{"property": "C112", "status": "partial", "theorems": ["Gears.Confs.C112_partial", "Gears.Confs.C112_options", "Gears.Confs.C112_violated"], "note": "Violated: user names with a colon, services with a slash at an end (C112_violated). C112_partial: for all other users and services, any password, plain hosts and keys. BuildUrl and the URL reading of go-ora v2.4.18 are modelled as library code."},
{"property": "C113", "status": "proved", "theorems": ["Gears.Url.C113_parse", "Gears.Url.C113_processors", "Gears.Url.C113_any_scheme", "Gears.Url.C113_refused"], "note": "net/url of Go 1.17 is modelled as library code, without RawPath."},
{"property": "C114", "status": "proved", "theorems": ["Gears.Schedule.C114_created", "Gears.Schedule.C114_new", "Gears.Schedule.C114_panics", "Gears.Schedule.C114_warning"], "note": "The job function is nil or not; the printed texts other than the warning are not modelled."},
{"property": "C115", "status": "proved", "theorems": ["Gears.Confs.C115_es_config", "Gears.Confs.C115_es_client", "Gears.Confs.C115_es_status", "Gears.Confs.C115_redis_client"], "note": "The libraries' client creation and ping are inputs. Limits of the transport: C74."},
{"property": "C116", "status": "partial", "theorems": ["Gears.TokenBucket.Saturated.C116_rate_sharp", "Gears.TokenBucket.C116_between", "Gears.TokenBucket.C116_rate_partial", "Gears.TokenBucket.C116_violated"], "note": "Violated: at every issue the fraction of a second since the last one is lost, so that calls every 0.75 s get one token every 1.5 s at rate 1 (C116_violated). Proved: at least min(r,c) calls between two rejections a second apart (C116_between); with rejections at least every d, at least min(r,c) per 1s+d (C116_rate_partial); this is sharp up to a nanosecond for all 1 <= r <= c and all d up to a second (C116_rate_sharp)."},
{"property": "C117", "status": "proved", "theorems": ["Gears.Conf.Yaml.C117_meaning", "Gears.Conf.Yaml.C117_stored"], "note": "Both directions, against grammars of words, integers, floats; ParseFloat, conversions of floats and time.Parse are parameters; assumes ParseFloat accepts NaN, +Inf, -Inf."},
{"property": "C118", "status": "proved", "theorems": ["Gears.AtomicBucket.C118_operations", "Gears.AtomicBucket.C118_enabled", "Gears.AtomicBucket.C118_return", "Gears.AtomicBucket.C118_individual"], "note": "Total number of atomic operations bounded for every schedule (C118_operations), always enabled (C118_enabled), all calls return one answer (C118_return); no bound for a single call (C118_individual). Clock forward, capacity and rate not negative, int64 as Int."},
{"property": "C119", "status": "proved", "theorems": ["Gears.Strconv.C119_read", "Gears.Strconv.C119_exponent", "Gears.Strconv.C119_unique", "Gears.Strconv.C119_field", "Gears.Strconv.C119_write", "Gears.Strconv.C119_roundtrip", "Gears.Strconv.C119_digits", "Gears.Strconv.C119_injective", "Gears.Strconv.C119_json", "Gears.Strconv.C119_stable", "Gears.Strconv.C119_int"], "note": "Concrete; the fast paths of strconv (Eisel-Lemire, Ryu) are modelled by the exact result, which they are designed to produce. Exponents with more than five digits lose their last digits, as in the code. Instantiates the parameters of C101, C102, C104 (C119_json, C119_stable) and of C103 (C119_field)."},
{"property": "C120", "status": "partial", "theorems": ["Gears.Strconv.C120_signed_partial", "Gears.Strconv.C120_unsigned_partial", "Gears.Strconv.C120_exact_partial", "Gears.Strconv.C120_accepted", "Gears.Strconv.C120_violated", "Gears.Strconv.C120_differ"], "note": "Violated: 1.5 is stored as 1 (C120_violated); C120_differ: 2^63 and everything below -2^63 and minus infinity are accepted with a value that the language does not define, and so are negative floats for unsigned fields; 2^53+1 with a point becomes 2^53. Proved: exactly what is stored for every float (C120_signed_partial, C120_unsigned_partial: truncation in range; too large and NaN refused), integers and decimal texts of integers with at most 53 bits exactly (C120_exact_partial), and that these are accepted (C120_accepted). The value of out-of-range conversions is a parameter."},
{"property": "C121", "status": "partial", "theorems": ["Gears.AtomicBucket.C121_exact_partial", "Gears.AtomicBucket.C121_bound_partial", "Gears.AtomicBucket.C121_violated", "Gears.AtomicBucket.C121_overfull_violated"], "note": "Violated for huge rates: at 2^62 per second a call is refused that should be admitted (C121_violated), and at the greatest rate two goroutines fill the bucket above its capacity (C121_overfull_violated). Proved: identical runs for any number of goroutines and every schedule of at most 2^63 steps while capacity + rate * seconds < 2^63 (C121_exact_partial), hence the bounds of C06 and C07 (C121_bound_partial). Clock readings within 0 and 2^63-1."},
{"property": "C122", "status": "partial", "theorems": ["Gears.Pq.C122_url", "Gears.Pq.C122_partial", "Gears.Pq.C122_brackets_partial", "Gears.Pq.C122_violated"], "note": "Violated: an empty password is replaced by PGPASSWORD, an empty host by localhost or PGHOST; an IPv6 host without brackets becomes the host '::1:5432'; an option named user may replace the user; the datestyle the driver demands is cut at its comma; a slash in the password and a space in a key are errors (C122_violated). Proved: the URL gives back user, password, host, port and database if and only if they need no escapes (C122_url); then, with keys and values as listed in Plain, the driver has exactly the configured settings in every environment (C122_partial), also for an address in brackets (C122_brackets_partial). lib/pq v1.10.9 and net are modelled from their sources as known; reading PG... variables is a parameter."},
{"property": "C123", "status": "partial", "theorems": ["Gears.CircuitBreaker.C123_window", "Gears.CircuitBreaker.C123_count_partial", "Gears.CircuitBreaker.C123_partial", "Gears.CircuitBreaker.C123_violated"], "note": "Violated: a task that panics is recorded neither as a failure nor as a success, so after a timeout each panicking task is followed by the next without any delay (C123_violated). Proved when no task panics: the tasks started within one timeout while open are all in progress at one moment (C123_window), hence at most n (C123_count_partial), and the bound for k timeouts from any moment on (C123_partial), which an example reaches."},
{"property": "C124", "status": "proved", "theorems": ["Gears.Rsa.C124_point", "Gears.Rsa.C124_extract", "Gears.Rsa.C124_private", "Gears.Rsa.C124_sound", "Gears.Rsa.C124_pair", "Gears.Rsa.C124_public"], "note": "The standard library is modelled for Go 1.17; the theorems hold for every set of points of elliptic curves, C124_point has the points that are accepted; DER texts shorter than 2^31 bytes, as the readers demand."},
{"property": "C125", "status": "partial", "theorems": ["Gears.Rsa.C125_partial", "Gears.Rsa.C125_violated"], "note": "Violated: that the primes are prime and different is not checked by x509.ParsePKCS1PrivateKey (Go 1.17), e.g. 9 = 3·3 is accepted (C125_violated). Proved for keys whose primes are prime and different, two or more (C125_partial)."},
{"property": "C126", "status": "partial", "theorems": ["Gears.Confstore.Panics.C126_get_partial", "Gears.Confstore.Panics.C126_partial", "Gears.Confstore.Panics.C126_stuck_violated", "Gears.Confstore.Panics.C126_violated", "Gears.Confstore.Panics.C126_own_partial"], "note": "Violated: RsaPublicKey panics for public keys of other kinds (C77), also while values are loaded, so that with such a text in redis every read of every key panics, and goes on doing so, since the load policy does not count a load that panicked (C126_stuck_violated). It takes only calls of the store: an update before the registration is saved (C60) and loaded afterwards (C126_violated). Proved: a read panics exactly in this case, and otherwise returns the value it should (C126_get_partial), also for batch and Must reads (C126_partial); never if only this store writes to redis, keys are registered first and not deregistered (C126_own_partial)."},
{"property": "C127", "status": "proved", "theorems": ["Gears.Schedule.C127_since", "Gears.Schedule.C127_rate_bound", "Gears.Schedule.C127_rate", "Gears.Schedule.C127_delay", "Gears.Schedule.C127_cancel", "Gears.Schedule.C127_stop"], "note": "Proved: C127_rate_bound for all schedules; C127_rate (iff) and C127_delay for prompt executions; C127_cancel, C127_stop for idle states of all executions; C127_since ties the reference time to the successful Start."},
{"property": "C128", "status": "partial", "theorems": ["Gears.TtlRedis.Lua.C128_endless_violated", "Gears.TtlRedis.Lua.C128_violated", "Gears.TtlRedis.Lua.C128_partial"], "note": "Violated: with a timeout of 10^16 seconds or more (Params are accepted as set) redis refuses the expiry times, the script fails after RPUSH resp. at SET, and errors count as passes: C128_endless_violated says that no history of such calls ever has a blocked one. Partial: parameters and times up to 2^52, for every arithmetic exact up to 2^53. Redis as of 6.2.6 (SET and EXPIRE check for overflow; numbers become arguments by %.17g)."},
{"property": "C129", "status": "partial", "theorems": ["Gears.Confstore.C129_reset_violated", "Gears.Confstore.C129_update_violated", "Gears.Confstore.C129_violated", "Gears.Confstore.C129_partial", "Gears.Confstore.C129_agree_partial"], "note": "Violated: ResetKey in one process deletes the key in redis, but loading never removes a value, so the others keep the old one through all later loads (C129_reset_violated); an accepted Update is not persisted (C60), so the others never see it (C129_update_violated). Partial: keys that are set by BatchUpdate only, each batch naming the key at most once and its HMSET succeeding: every process reads the value redis wrote last, else the one redis had, else the default. UpdateNoPersist is one step here (C66 has its steps)."},
{"property": "C130", "status": "partial", "theorems": ["Gears.Schedule.JobLog.C130_violated", "Gears.Schedule.JobLog.C130_partial", "Gears.Schedule.JobLog.C130_late_violated"], "note": "Violated: the job's goroutine closes fin before it reads timeoutCtx.Err(); runJob may return in between and its deferred cancel() makes a job that finished normally, of a task nobody stopped, be logged as canceled by stop signal; likewise a timeout that passes in between (C130_late_violated, for all running times and results). Partial: if the channel was closed when the job returned the line is right, and its reason is true; finished is only logged for jobs whose channel was open; a wrong line names something that happened by then."},
{"property": "C131", "status": "proved", "theorems": ["Gears.TaskManager.C131_refines", "Gears.TaskManager.C131_alone", "Gears.TaskManager.C131_progress", "Gears.TaskManager.C131_steps", "Gears.TaskManager.C131_returns", "Gears.TaskManager.C131_unregister", "Gears.TaskManager.C131_unregisterAll"], "note": "Refines C48/C49's model, so these hold for the real tasks, too. The jobs that may start after Unregister are exactly those of C44."},
{"property": "C132", "status": "proved", "theorems": ["Gears.Bus.C132_safe", "Gears.Bus.C132_turn", "Gears.Bus.C132_call", "Gears.Bus.C132_drop", "Gears.Bus.C132_stop"], "note": "Refines the model of C33-C40, so everything shown there holds with the real lock. What C92_partial had to assume (no dispatcher comes while a call waits) is now proved."},
{"property": "C133", "status": "proved", "theorems": ["Gears.CircuitBreaker.C133_breaker", "Gears.CircuitBreaker.C133_breaker_tight", "Gears.FixedWindow.C133_fixed", "Gears.FixedWindow.C133_fixed_tight", "Gears.FixedWindow.C133_fixed_zero"], "note": "Makes C11-C14 and C23-C26 statements about the 64-bit program. int of 32 bits is not covered."},
{"property": "C134", "status": "proved", "theorems": ["Gears.Conf.C134_names", "Gears.Conf.C134_tables", "Gears.Conf.C134_undocumented", "Gears.Conf.C134_load", "Gears.Conf.C134_alone"], "note": "Uses C50, C54, C81 and C89."},
{"property": "C135", "status": "partial", "theorems": ["Gears.Sema.C135_order", "Gears.Sema.C135_count", "Gears.Sema.C135_wait", "Gears.Sema.C135_starve_violated", "Gears.Sema.C135_chan", "Gears.Sema.C135_lock_violated", "Gears.Sema.C135_lock_partial"], "note": "The order is violated by LockSemaphore (C135_lock_violated, C135_starve_violated); proved for ChanSemaphore with the FIFO queue of Go channels."},
{"property": "C136", "status": "partial", "theorems": ["Gears.Skywalking.C136_roundtrip", "Gears.Skywalking.C136_start", "Gears.Skywalking.C136_garbled", "Gears.Skywalking.C136_chain", "Gears.Skywalking.C136_unsampled", "Gears.Skywalking.C136_inside", "Gears.Skywalking.C136_options", "Gears.Skywalking.C136_hook_partial", "Gears.Skywalking.C136_hook_violated"], "note": "go2sky v1.4.0 is modelled from its documentation and source as known, without correlation data. The hook violates its part: NewHook without WithAddr, or with a nil tracer, makes every command panic."},
{"property": "C137", "status": "partial", "theorems": ["Gears.FixedWindow.C137_fixed_decided", "Gears.FixedWindow.C137_fixed_readings", "Gears.FixedWindow.C137_fixed_partial", "Gears.FixedWindow.C137_fixed_refused", "Gears.FixedWindow.C137_fixed_attained", "Gears.FixedWindow.C137_fixed_violated", "Gears.SlidingWindow.C137_sliding_returns", "Gears.SlidingWindow.C137_sliding_bound", "Gears.SlidingWindow.C137_sliding_decided", "Gears.SlidingWindow.C137_sliding_violated", "Gears.SlidingWindow.C137_sliding_partial"], "note": "Both windows lose exactness. Sliding window: the bound holds, but a call may be refused with fewer than c admitted in the window before it; with delays up to d, c are in the window extended by d. Fixed window: late calls are counted in a later interval, so an interval may contain c + m(c-1) admitted readings with delays up to m windows, and this is attained; within any time shorter than nW - d at most (n+1)c are admitted."},
{"property": "C138", "status": "partial", "theorems": ["Gears.TtlRedis.C138_bound_partial", "Gears.TtlRedis.C138_redis_partial", "Gears.TtlRedis.C138_trigger", "Gears.TtlRedis.C138_violated"], "note": "The bounds hold for windows (or parts v of windows) shorter than twice the timeout by 2η and a second, without any order of the client seconds. For longer windows the claim is false: the list expires after twice the timeout without a call, and the window starts afresh."},
{"property": "C139", "status": "partial", "theorems": ["Gears.CircuitBreaker.C139_breaker", "Gears.FixedWindow.C139_fixed", "Gears.SlidingWindow.C139_sliding", "Gears.SlidingWindow.C139_sliding_bound", "Gears.TokenBucket.C139_bucket", "Gears.TtlRedis.Globals.C139_scripts_violated", "Gears.TtlRedis.Globals.C139_scripts_partial"], "note": "Sequentially consistent memory (which Go guarantees for programs without races). Locks are not modelled with their queues, so this says nothing of progress. The claim is false for scriptSha1/scriptSha2: LoadScript while a limiter is in use is a race."},
{"property": "C140", "status": "proved", "theorems": ["Gears.Confstore.C140_sections", "Gears.Confstore.C140_methods", "Gears.Confstore.C140_states", "Gears.Confstore.C140_values"], "note": "Sequentially consistent memory. A load policy is left open: loading nothing, failing, or any keys. Redis executes one command at a time."},
{"property": "C141", "status": "proved", "theorems": ["Gears.Schedule.Instr.C141_race_free", "Gears.Schedule.Instr.C141_refines", "Gears.Schedule.Instr.C141_holder", "Gears.Schedule.Instr.C141_results", "Gears.Schedule.Instr.C141_once", "Gears.Schedule.Instr.C141_delay", "Gears.Schedule.Instr.C141_rate"], "note": "Sequentially consistent memory. The goroutines of runJob and of the timers touch none of the three fields and make the steps of Schedule/Model."},
{"property": "C142", "status": "proved", "theorems": ["Gears.Bus.Instr.C142_race_free", "Gears.Bus.Instr.C142_refines", "Gears.Bus.Instr.C142_panics", "Gears.Bus.Instr.C142_holder", "Gears.Bus.Instr.C142_closes"], "note": "Sequentially consistent memory. Locks without the priority of waiting writers (that is C132): more schedules."},
{"property": "C143", "status": "proved", "theorems": ["Gears.TaskManager.Instr.C143_race_free", "Gears.TaskManager.Instr.C143_refines", "Gears.TaskManager.Instr.C143_alone", "Gears.TaskManager.Instr.C143_stops", "Gears.TaskManager.Instr.C143_ends"], "note": "Sequentially consistent memory. Tasks are those of the package; Register(nil) is not a step."},
{"property": "C144", "status": "partial", "theorems": ["Gears.TtlRedis.C144_history", "Gears.TtlRedis.C144_answers", "Gears.TtlRedis.C144_admission", "Gears.TtlRedis.C144_trigger_partial", "Gears.TtlRedis.C144_once_partial", "Gears.TtlRedis.C144_self_violated", "Gears.TtlRedis.C144_reported_partial", "Gears.TtlRedis.C144_silent_violated"], "note": "(1)-(3) hold. (4) holds with MaxRetries 0 and is violated with 1 or more: a call that is sent again counts again, so on a limiter of capacity 1 the very first call can block itself; in general a block begins after capacity/(MaxRetries+1) calls. (5) is violated with any MaxRetries: when the reply to the triggering command is lost, the caller is let through, all later ones are blocked, and nobody is told Triggered; proved instead: an executed command triggered the block, and its call was told so unless that answer was lost."},
{"property": "C145", "status": "partial", "theorems": ["Gears.Confstore.Late.C145_values", "Gears.Confstore.Late.C145_old_partial", "Gears.Confstore.Late.C145_landed_partial", "Gears.Confstore.Late.C145_once_partial", "Gears.Confstore.Late.C145_failed_violated", "Gears.Confstore.Late.C145_acked_violated", "Gears.Confstore.Late.C145_reads_violated"], "note": "(1) holds. (2) is violated: a command of a call that gave up may arrive after a later call was answered, with any MaxRetries; with MaxRetries >= 1 even if every call was answered, since the first of two transmissions may arrive last; a process then reads the new value and later the old one. Proved instead: redis holds the value of the answered call or of an earlier one with a transmission on its way when all had returned; none on its way (so: MaxRetries 0 and all answered) makes the claim true."},
{"property": "C146", "status": "partial", "theorems": ["Gears.CircuitBreaker.C146_breaker_recovers_partial", "Gears.CircuitBreaker.C146_breaker_open_partial", "Gears.CircuitBreaker.C146_breaker_refuses_violated", "Gears.CircuitBreaker.C146_breaker_open_violated", "Gears.CircuitBreaker.C146_breaker_claim_violated", "Gears.FixedWindow.C146_fixed_bound_partial", "Gears.FixedWindow.C146_fixed_recovers_partial", "Gears.FixedWindow.C146_fixed_refuses_violated", "Gears.FixedWindow.C146_fixed_recover_claim_violated", "Gears.FixedWindow.C146_fixed_bound_violated", "Gears.FixedWindow.C146_fixed_bound_claim_violated", "Gears.SlidingWindow.C146_sliding_bound_partial", "Gears.SlidingWindow.C146_sliding_recovers_partial", "Gears.SlidingWindow.C146_sliding_bound_violated", "Gears.SlidingWindow.C146_sliding_bound_claim_violated", "Gears.SlidingWindow.C146_sliding_refuses_violated", "Gears.SlidingWindow.C146_sliding_recover_claim_violated", "Gears.TokenBucket.C146_bucket_bound_partial", "Gears.TokenBucket.C146_bucket_bound_violated", "Gears.TokenBucket.C146_bucket_bound_claim_violated", "Gears.TokenBucket.C146_bucket_refuses_violated", "Gears.TokenBucket.C146_bucket_recover_claim_violated", "Gears.TokenBucket.C146_bucket_recovers_partial"], "note": "Both parts are violated, since UnixNano() is the wall clock alone. Set back by B: the sliding window refuses for W + B, the fixed window, the bucket and the breaker for B (more than their regular time when B is large). Set ahead: any multiple of the capacity at one moment; a clock moved to and fro by two seconds makes a bucket of capacity 1 admit any number of calls at one moment (division rounds towards zero, so going back costs less than going forward gives). Proved instead, with settings that differ by at most B: the bound of the sliding window for intervals of W - B, that of the fixed window for less than W - B, an admission bound of the bucket with a second of rate for each backward step; recovery after W + B, W + B + 2.048 us, 2 B + 2 s and timeout + B."},
{"property": "C147", "status": "partial", "theorems": ["Gears.Arch32.C147_sync_exact_partial", "Gears.Arch32.C147_sync_bound_partial", "Gears.Arch32.C147_sync_idle_violated", "Gears.Arch32.C147_sync_claim_violated", "Gears.Arch32.C147_alignment_violated", "Gears.Arch32.C147_alignment64_partial", "Gears.Arch32.C147_atomic64_partial", "Gears.Arch32.C147_atomic32_violated", "Gears.Arch32.C147_embedded32_violated", "Gears.Arch32.C147_atomic_claim_violated"], "note": "Violated on 32-bit machines. AtomicTokenBucket: tokens is at offset 4 and lastIssueTimestamp at 16, so exactly one of them is misaligned wherever the bucket is. A bucket from NewAtomicTokenBucket (multiple of 8) panics in every call; one inside another struct at 4 modulo 8 answers at most its number of goroutines calls with a full bucket and then panics in every call. SyncTokenBucket: after an idle time with capacity - 1 + rate * seconds >= 2^31 it refuses every call until that sum has passed 2^32 (rate 1000/s: about 25 days). Proved instead: on 64-bit machines both cells are aligned and the bucket is that of C05-C07; on 32-bit ones the sync bucket never admits more than C01 allows, and decides as without bounds while capacity + rate * seconds since creation fits 31 bits."},
{"property": "C148", "status": "partial", "theorems": ["Gears.Degenerate.C148_bucket_capacity_partial", "Gears.Degenerate.C148_atomic_capacity_partial", "Gears.Degenerate.C148_fixed_capacity_partial", "Gears.Degenerate.C148_sliding_capacity_violated", "Gears.Degenerate.C148_violated", "Gears.Degenerate.C148_rate_zero", "Gears.Degenerate.C148_rate_bound", "Gears.Degenerate.C148_rate_negative", "Gears.Degenerate.C148_fixed_window_zero", "Gears.Degenerate.C148_fixed_window_negative", "Gears.Degenerate.C148_sliding_window_negative", "Gears.Degenerate.C148_breaker_threshold", "Gears.Degenerate.C148_breaker_early", "Gears.Degenerate.C148_breaker_timeout", "Gears.Degenerate.C148_lock_partial", "Gears.Degenerate.C148_chan_new_violated", "Gears.Degenerate.C148_chan_zero_violated", "Gears.Degenerate.C148_chan_zero_partial", "Gears.Degenerate.C148_sema_violated"], "note": "Violated: a sliding window of capacity zero or less admits every call while the other limiters admit none; NewChanSemaphore panics for a negative number of permits, and with 0 permits an Acquire returns as soon as anybody calls Release (unbuffered channel), which the LockSemaphore never does. Proved: the claim for both buckets, the fixed window and the LockSemaphore. A bucket with rate zero admits exactly its first c calls; a fixed window of size zero admits all calls, one of negative size all calls whose reading is no multiple of its size (readings below 2^53); a sliding window of negative size all calls; a breaker with threshold <= 0 has the same log as one with threshold 1 when the clock is after the timeout (since 1970) and refuses its first call otherwise."},
{"property": "C149", "status": "partial", "theorems": ["Gears.Confstore.Reenter.C149_limit", "Gears.Confstore.Reenter.C149_free", "Gears.Confstore.Reenter.C149_register_violated", "Gears.Confstore.Reenter.C149_convert_violated", "Gears.Confstore.Reenter.C149_load_violated", "Gears.Confstore.Reenter.C149_spaced_stuck", "Gears.Confstore.Reenter.C149_noop_partial", "Gears.Confstore.Reenter.C149_pure_partial", "Gears.Confstore.Reenter.C149_read_partial", "Gears.Confstore.Reenter.C149_violated"], "note": "Violated: RegisterKey calls Validate and Convert, and an update calls Convert, with kvLock held, so one that reads never returns, whatever the policy. If redis holds a value of a key whose Validate reads, no read of any key returns: the simple policy loads inside of loading without end, the spaced one waits for its own loadLock. Proved: with the policy that never loads, Validate may read in updates and sees the current values; processors that read nothing give the results of C57-C66; results do not depend on the limit, and calls that return have given back their locks. Only GetValueString is called back; other goroutines are C93."},
{"property": "C150", "status": "partial", "theorems": ["Gears.TtlRedis.C150_kept_partial", "Gears.TtlRedis.C150_trim_partial", "Gears.TtlRedis.Lua.C150_gone_partial", "Gears.TtlRedis.Lua.C150_stays_violated", "Gears.TtlRedis.Lua.C150_violated", "Gears.SlidingWindow.C150_sliding_partial"], "note": "Violated for timeouts of 10^16 seconds or more: the script pushes to the list and is aborted at EXPIRE, so the list has no expiry and stays. Proved for parameters and times up to 2^52, with the capacity bound for every call and, after the capacity is reduced, by the next call that is not blocked already; the sliding window without restriction."},
{"property": "C151", "status": "partial", "theorems": ["Gears.Schedule.C151_delay_violated", "Gears.Schedule.C151_violated", "Gears.Schedule.C151_rate_partial", "Gears.Schedule.C151_others_partial", "Gears.Schedule.C151_held_violated", "Gears.Schedule.C151_leak_violated", "Gears.Schedule.C151_panic_violated", "Gears.Schedule.C151_panic_claim_violated"], "note": "Violated: a FixedDelayTask never starts another job (C151_delay_violated), the goroutines of the job and of its runJob stay whatever the timeout and Stop do (C151_held_violated), a FixedRateTask can have any number of them (C151_leak_violated), and a panic ends all tasks (C151_panic_violated). Proved: a FixedRateTask goes on (C151_rate_partial), and what becomes of one job is of no account to the others (C151_others_partial)."},
{"property": "C152", "status": "partial", "theorems": ["Gears.Conf.C152_first", "Gears.Conf.C152_later_partial", "Gears.Conf.C152_exit_violated", "Gears.Conf.C152_later_violated", "Gears.Conf.C152_rewrites_violated", "Gears.Conf.C152_again_violated", "Gears.Conf.C152_violated"], "note": "Violated: a flag of a struct that is loaded later makes the first call exit (C152_exit_violated), so a later struct never gets anything from the command line or a yaml file (C152_later_violated); a later call writes the flag values to the earlier structs again (C152_rewrites_violated); the same yaml flag twice panics (C152_again_violated). Proved: the first call is as in C55, a later one is as a single call with the earlier flags defined before (C152_later_partial)."},
{"property": "C153", "status": "partial", "theorems": ["Gears.TtlRedis.C153_admission_partial", "Gears.TtlRedis.C153_block_partial", "Gears.TtlRedis.C153_cause", "Gears.TtlRedis.C153_none", "Gears.TtlRedis.C153_bursts_violated", "Gears.TtlRedis.C153_violated", "Gears.TtlRedis.C153_block_violated", "Gears.TtlRedis.C153_block_claim_violated"], "note": "Violated: a loss between two bursts lets capacity requests pass again, any number of times (C153_bursts_violated, C153_violated), and a block whose trigger the new server has not received is gone and is triggered again (C153_block_violated, C153_block_claim_violated). Proved: at most capacity * (1 + number of losses of the list key in the window) pass (C153_admission_partial); a block lasts if no loss goes back to before its trigger (C153_block_partial); no loss makes up a block (C153_cause)."},
{"property": "C154", "status": "partial", "theorems": ["Gears.Conf.C154_returns_partial", "Gears.Conf.C154_alloc", "Gears.Conf.C154_circle_violated", "Gears.Conf.C154_names", "Gears.Conf.C154_visits_end", "Gears.Conf.C154_variables", "Gears.Conf.C154_values", "Gears.Conf.C154_flags_violated", "Gears.Conf.C154_same", "Gears.Conf.C154_load_partial", "Gears.Conf.C154_violated", "Gears.Conf.C154_shared_violated"], "note": "Violated: if the pointers lead in a circle, initStruct recurses without end (C154_circle_violated, C154_violated); of the flags of fields that share a variable the one given last sets all of them (C154_flags_violated, C154_shared_violated). Proved: initStruct returns exactly if the exported pointers of the type do not lead on without end, whatever the values are (C154_returns_partial), then completes the configuration without changing other values (C154_alloc), and the visits end and are those of the unfolded tree (C154_visits_end, C154_names, C154_variables); the value of every variable, shared or not (C154_values); fields that share nothing have their own value (C154_load_partial)."},
{"property": "C155", "status": "partial", "theorems": ["Gears.Confstore.Loss.C155_sources", "Gears.Confstore.Loss.C155_kept_partial", "Gears.Confstore.Loss.C155_undone_violated", "Gears.Confstore.Loss.C155_split_violated", "Gears.Confstore.Loss.C155_violated", "Gears.Confstore.Loss.C155_saved"], "note": "Violated: a loss back to an older value undoes the update in every process with its next load, also in the one that made it (C155_undone_violated); a loss back to before there was a value splits the processes: running ones keep it, restarted ones read the default, for ever (C155_split_violated, C155_violated). Proved: as long as no loss of the key goes back to before the value was saved, all processes read it (C155_kept_partial); values come from calls only (C155_sources); saving it again repairs redis (C155_saved)."},
{"property": "C156", "status": "partial", "theorems": ["Gears.Conf.Yaml.Merge.C156_order", "Gears.Conf.Yaml.Merge.C156_aliases", "Gears.Conf.Yaml.Merge.C156_merge_partial", "Gears.Conf.Yaml.Merge.C156_violated", "Gears.Conf.Yaml.Merge.C156_deep_violated", "Gears.Conf.Yaml.Merge.C156_null_violated", "Gears.Conf.Yaml.Merge.C156_ends", "Gears.Conf.Yaml.Merge.C156_circle"], "note": "Violated: yaml.v3 (version of go.mod) decodes merged mappings in place, so a value merged after a key wins over the key's own value (C156_violated), mappings for the same key are joined instead of replaced (C156_deep_violated), and a null does not override (C156_null_violated). Proved: a file with merge keys does what its entries do one after the other in the order of the file (C156_order); files with aliases only are as with the aliases written out (C156_aliases); with << as first key and scalars overridden by scalars the claim holds (C156_merge_partial); decoding always ends (C156_ends), self-merging mappings are refused (C156_circle)."},
{"property": "C157", "status": "partial", "theorems": ["Gears.Bus.Loop.C157_only", "Gears.Bus.Loop.C157_drop_partial", "Gears.Bus.Loop.C157_room_partial", "Gears.Bus.Loop.C157_quiet_partial", "Gears.Bus.Loop.C157_forever", "Gears.Bus.Loop.C157_violated"], "note": "Violated: a reader of a Block receiver that sends one event while the dispatcher has another event for this reader stops the bus (C157_violated), for ever (C157_forever). Proved: this is the only way (C157_only); it cannot happen without Block receivers (C157_drop_partial), if readers of Block receivers do not send themselves (C157_quiet_partial), or while the channel of the bus has room (C157_room_partial)."},
{"property": "C158", "status": "partial", "theorems": ["Gears.TtlRedis.Cluster.C158_refines", "Gears.TtlRedis.Cluster.C158_taken_partial", "Gears.TtlRedis.Cluster.C158_home_partial", "Gears.TtlRedis.Cluster.C158_refused", "Gears.TtlRedis.Cluster.C158_off_violated", "Gears.TtlRedis.Cluster.C158_moved_violated", "Gears.TtlRedis.Cluster.C158_moving", "Gears.TtlRedis.Cluster.C158_crossslot", "Gears.TtlRedis.Cluster.C158_admission", "Gears.TtlRedis.Cluster.C158_violated"], "note": "Violated: the client of a limiter is a plain *redis.Client, which does not follow MOVED and ASK; a node that does not own the slot of the hash tag lets every call pass, for ever (C158_off_violated), also after the slot was moved away (C158_moved_violated); while it is being moved no block begins (C158_moving); keys in different slots are never limited (C158_crossslot). Proved for all histories: the results are those of one server that answers the calls which a node executes (C158_refines, C158_admission); so with a client on the owner of a slot that is not moved the claim holds (C158_home_partial, C158_taken_partial)."},
{"property": "C159", "status": "proved", "theorems": ["Gears.Bus.Live.C159_readers", "Gears.Bus.Live.C159_round", "Gears.Bus.Live.C159_taken", "Gears.Bus.Live.C159_event", "Gears.Bus.Live.C159_accepts", "Gears.Bus.Live.C159_close", "Gears.Bus.Live.C159_lock", "Gears.Bus.Live.C159_unserved"], "note": "Hypotheses: strong fairness of dispatchers (the Go runtime serves waiting senders first-in first-out), Block receivers are ready again and again (C159_readers: that follows if each has a reading goroutine that does not return and weak fairness of readers), nobody closes a receiver twice (C38). C159_unserved: without readers an event stays in the channel for ever."},
{"property": "C160", "status": "partial", "theorems": ["Gears.Sema.C160_chan", "Gears.Sema.C160_lock_partial", "Gears.Sema.C160_lock_progress", "Gears.Sema.C160_violated"], "note": "ChanSemaphore: proved (C160_chan). LockSemaphore: violated, even with a strongly fair mutex: an explicit infinite execution in which one Acquire never returns while permits are given back for ever (C160_violated). Proved: an Acquire returns or others get permits for ever (C160_lock_partial), so as long as somebody waits somebody gets a permit (C160_lock_progress)."},
{"property": "C161", "status": "proved", "theorems": ["Gears.Schedule.Live.C161_job", "Gears.Schedule.Live.C161_runs", "Gears.Schedule.Live.C161_start", "Gears.Schedule.Live.C161_stop"], "note": "That jobs return, when called, is part of the fairness hypothesis (the end of a job is one of the actions that stay possible)."},
{"property": "C162", "status": "partial", "theorems": ["Gears.AtomicBucket.Live.C162_partial", "Gears.AtomicBucket.Live.C162_bounded", "Gears.AtomicBucket.Live.C162_progress", "Gears.AtomicBucket.Live.C162_violated"], "note": "Violated: an explicit infinite execution in which one goroutine issues and takes a token every second and the CAS of the other fails every time (C162_violated). Proved: a call returns if time stays below some bound, even if others call without end (C162_bounded); it returns or tokens are issued for ever (C162_partial); and in any case some call returns (C162_progress)."},
{"property": "C163", "status": "proved", "theorems": ["Gears.Conf.Yaml.Text.C163_reads", "Gears.Conf.Yaml.Text.C163_unique", "Gears.Conf.Yaml.Text.C163_comments", "Gears.Conf.Yaml.Text.C163_writes", "Gears.Conf.Yaml.Text.C163_load"], "note": "The scanner of yaml.v3 is modelled for this style only: block sequences, flow collections, tags, anchors, escapes, values over several lines and bytes that are not ASCII are outside (parse is none, and nothing is claimed there). That parse agrees with yaml.v3 on this style is the hypothesis ReadsText of C163_load."},
{"property": "C164", "status": "proved", "theorems": ["Gears.CircuitBreaker.Live.C164_returns", "Gears.CircuitBreaker.Live.C164_retries", "Gears.CircuitBreaker.Live.C164_recovers", "Gears.CircuitBreaker.Live.C164_opens"], "note": "That the tasks end and that the Go scheduler lets every goroutine go on are hypotheses (goes). The clock need not be monotonic: only that calls with arbitrarily late readings are made (CalledLate)."},
{"property": "C165", "status": "partial", "theorems": ["Gears.Confstore.Fresh.C165_fresh", "Gears.Confstore.Fresh.C165_seen", "Gears.Confstore.Fresh.C165_held", "Gears.Confstore.Fresh.C165_forward_partial", "Gears.Confstore.Fresh.C165_violated"], "note": "Violated for SimpleLoadPolicy only, and there only the last part: loads overlap, and a reply that redis sent before a change may be put into the store after a newer one, so that a goroutine reads the new value and then the old one (C165_violated). Proved: the bound with both policies (C165_fresh, C165_seen), and that reads do not go back with NewLoadPolicy, also for an interval of zero or less (C165_forward_partial). One key, which is not deleted and which this process does not set itself; NoopLoadPolicy is not covered."},
{"property": "C166", "status": "partial", "theorems": ["Gears.Conform.C166_bucket_partial", "Gears.Conform.C166_bursts_partial", "Gears.Conform.C166_atomic_partial", "Gears.Conform.C166_sliding", "Gears.Conform.C166_fixed_partial", "Gears.Conform.C166_fixed_any_start_partial", "Gears.Conform.C166_bucket_violated", "Gears.Conform.C166_fixed_violated", "Gears.Conform.C166_redis_partial", "Gears.Conform.C166_redis_violated", "Gears.Conform.Sharp.C166_half_sharp", "Gears.Conform.Sharp.C166_half_sharp_atomic"], "note": "Proved for the sliding window (C166_sliding, window closed on both ends). Violated for the token buckets, which forget fractions of a second: with capacity 3 and rate 2, three calls at 0, two at 1.9 s and one at 2.0 s keep to the limit, but the last is rejected (C166_bucket_violated). What holds: min(capacity, rate) calls in any second are admitted (C166_bucket_partial), and so are bursts of the capacity followed by half of the rate (C166_bursts_partial), where no share above the rate in two seconds less a nanosecond would do, for any rate and any larger capacity (C166_half_sharp, C166_half_sharp_atomic); the same for AtomicTokenBucket when calls do not overlap (C166_atomic_partial). Violated for the fixed window by rounding in float64: of two calls exactly a window apart the second is rejected with capacity 1 (C166_fixed_violated); it holds for the clocks of C13 (C166_fixed_partial), and for all starts when the calls keep to the capacity in two windows (C166_fixed_any_start_partial). Violated for the redis limiter, which cuts times to seconds: of two calls 10.999 s apart the second is blocked, with capacity 1 and a window of ten seconds (C166_redis_violated); nothing is blocked when all keys keep to their capacity in the window and one second (and the difference of the clocks) (C166_redis_partial)."},
{"property": "C167", "status": "partial", "theorems": ["Gears.TtlRedis.Again.C167_first_call_partial", "Gears.TtlRedis.Again.C167_second_call", "Gears.TtlRedis.Again.C167_shut_out", "Gears.TtlRedis.Again.C167_own_key", "Gears.TtlRedis.Again.C167_violated"], "note": "Violated as documented (\"After timeout seconds, blockKey will be released and request key can be passed again\", ttl_ratelimiter.go:48): if the window is not shorter than the timeout, the requests that filled it still count when the block is over, and the first request begins the next block (C167_violated: capacity 1, window 10 s, timeout 3 s). What holds: it passes if the timeout is longer than the window by a second and the difference of the clocks (C167_first_call_partial); whatever the window, the first request after a second block in a row passes (C167_second_call), as the list expires two timeouts after the last request that passed; a blocked request is preceded by a passed one with the same block key within the timeout plus the window (plus a second) or three timeouts, whichever is less (C167_shut_out, C167_own_key), even if the key is called all the time."},
{"property": "C168", "status": "partial", "theorems": ["Gears.TtlRedis.Change.C168_bound_partial", "Gears.TtlRedis.Change.C168_lowered", "Gears.TtlRedis.Change.C168_trigger", "Gears.TtlRedis.Change.C168_violated", "Gears.TtlRedis.Change.C168_raised_violated"], "note": "Violated: the script cuts the list when the capacity is lowered (ttl_ratelimiter_redis.go:82-89), and what was cut is not known any more when it is raised again (C168_violated: window 10 s, timeout 6 s, capacity 3, 1, 3: four requests pass within ten seconds); the same when capacity and window are raised together (C168_raised_violated). What holds: the claim, if the capacity is never raised (C168_lowered, window shorter than two timeouts); for a time that is not longer than any of the windows, the capacity of the moment bounds what passes in it, if all timeouts are longer than that time, or if the capacity is not raised after it was lowered (C168_bound_partial). That a block begins only on a full window of that moment holds for all changes (C168_trigger). That a running block is not changed by new parameters is C15."},
{"property": "C169", "status": "partial", "theorems": ["Gears.Conform.C169_sliding", "Gears.Conform.C169_sliding_capacity", "Gears.Conform.C169_fixed_capacity_partial", "Gears.Conform.C169_fixed_violated", "Gears.Conform.C169_bucket", "Gears.Conform.C169_atomic", "Gears.Conform.C169_redis_violated"], "note": "Holds for the token bucket (C169_bucket) and the atomic one called sequentially (C169_atomic), for the capacity of the sliding window (C169_sliding_capacity) and of the fixed window (C169_fixed_capacity_partial) call by call: what is admitted with the lower limit is admitted with the higher one. With a shorter sliding window the number of admitted calls does not fall (C169_sliding), single calls may be exchanged. Violated: a shorter fixed window may admit less (C169_fixed_violated: calls at 3 and 4, capacity 1, windows 3 and 2); the redis limiter with a higher capacity may let fewer pass (C169_redis_violated: a block that begins later blocks a later burst)."},
{"property": "C170", "status": "partial", "theorems": ["Gears.Conform.C170_sliding", "Gears.Conform.C170_fixed_partial", "Gears.Conform.C170_fixed_violated", "Gears.Conform.C170_bucket_violated"], "note": "Holds for the sliding window (C170_sliding, with C08 that it keeps the bound itself). For the fixed window with the clock of C13 (C170_fixed_partial); without it violated, as the first interval is not computed exactly (C170_fixed_violated). Violated by the token buckets (C170_bucket_violated): they lose the fractions of a second, so six calls that keep the bound are not all admitted."},
{"property": "C171", "status": "partial", "theorems": ["Gears.Conform.C171_bucket", "Gears.Conform.C171_atomic", "Gears.Conform.C171_sliding", "Gears.Conform.C171_fixed_partial", "Gears.Conform.C171_fixed_violated", "Gears.Conform.C171_fixed_whole_violated", "Gears.Conform.C171_redis", "Gears.Conform.C171_breaker_partial", "Gears.Conform.C171_breaker_violated"], "note": "Holds for the token bucket (C171_bucket), the atomic one called sequentially (C171_atomic), the sliding window with UpdateConfig (C171_sliding) and the redis limiter, all results, with independent shifts of redis and clients (C171_redis). The fixed window depends on the time of day, as its intervals are multiples of the window: the same answers for shifts by whole windows and the clock of C13 (C171_fixed_partial); violated for other shifts (C171_fixed_violated) and, by the rounding of the first interval at the times of today, also for whole windows (C171_fixed_whole_violated). The circuit breaker with a threshold of at least one decides the same in all concurrent executions (C171_breaker_partial); with threshold 0 it compares the clock with the timestamp 0 until the first failure (C171_breaker_violated)."},
{"property": "C172", "status": "partial", "theorems": ["Gears.TtlRedis.Reads.C172_refines", "Gears.TtlRedis.Reads.C172_off", "Gears.TtlRedis.Reads.C172_together_partial", "Gears.TtlRedis.Reads.C172_steady_partial", "Gears.TtlRedis.Reads.C172_nested", "Gears.TtlRedis.Reads.C172_fixed", "Gears.TtlRedis.Reads.C172_methods", "Gears.TtlRedis.Reads.C172_torn_block_violated", "Gears.TtlRedis.Reads.C172_torn_pass_violated"], "note": "Violated: the parameters are read one by one (ttl_ratelimiter.go:73-75, ttl_ratelimiter_redis.go:214-216), and a change in between gives a set that never was configured: a request is blocked that passes before and after the change (C172_torn_block_violated: capacity 1 of one second with window 3600 of two in an hour), or passes though it is blocked before and after (C172_torn_pass_violated). What holds: the claim if the three arguments of the script were in force together (C172_together_partial), so if at most one of the three values changes during the call (C172_steady_partial); fixed parameters (C172_fixed), nested limiters (C172_nested), switched off by any of the six reads (C172_off), the methods agree (C172_methods). C172_refines: whatever the getters return, the call is one of the calls of the model of the other properties."},
{"property": "C173", "status": "partial", "theorems": ["Gears.CircuitBreaker.Nested.C173_flat", "Gears.CircuitBreaker.Nested.C173_decides", "Gears.CircuitBreaker.Nested.C173_courses", "Gears.CircuitBreaker.Nested.C173_opens_partial", "Gears.CircuitBreaker.Nested.C173_opens_violated", "Gears.CircuitBreaker.Nested.C173_never_violated"], "note": "Violated (opening): the success of a call nested in a task sets the count of the same breaker back before the failure of the task is counted, so with a threshold of 2 or more tasks that all fail never open it (C173_opens_violated; C173_never_violated: no call is ever refused, however many fail). What holds: the rest of the claim (C173_flat: for each breaker the events and fields are those of an interleaving of concurrent calls, all ended, so the properties of concurrent calls carry over; C173_decides, C173_courses), and the opening if tasks and callbacks do not use the breaker they belong to (C173_opens_partial). Not modelled: a task that recovers the panic of a call nested in it."},
{"property": "C174", "status": "partial", "theorems": ["Gears.Sema.Several.C174_chan", "Gears.Sema.Several.C174_lock", "Gears.Sema.Several.C174_single_partial", "Gears.Sema.Several.C174_violated", "Gears.Sema.Several.C174_two_violated"], "note": "Violated: there is no call that takes several permits at once, so goroutines can block each other for ever: two permits and two goroutines that need both (C174_violated), or any number p of permits and p goroutines that need two each (C174_two_violated). What holds, for both semaphores and exactly (C174_chan, C174_lock): all get through in every interleaving if and only if there are more permits than the sum of (need - 1) over the goroutines; in particular if each needs only one (C174_single_partial)."},
{"property": "C175", "status": "partial", "theorems": ["Gears.Conform.Chain.C175_each", "Gears.Conform.Chain.C175_sliding", "Gears.Conform.Chain.C175_bucket", "Gears.Conform.Chain.C175_fixed", "Gears.Conform.Chain.C175_first_partial", "Gears.Conform.Chain.C175_one_partial", "Gears.Conform.Chain.C175_violated", "Gears.Conform.Chain.C175_retries_violated"], "note": "Violated in its last part: the interface has no call that gives a permit back, so a request refused by a later limiter has been counted by those before it (C175_violated); for every capacity c, c attempts at once on a window before a bucket of one let one pass and block everything for the whole window (C175_retries_violated). The first two parts hold: C175_each, and the bounds of the three limiters wherever they stand in the list (C175_sliding, C175_bucket, C175_fixed; for the fixed window the bound that holds, C12). The last part holds if all refusals come from the first limiter (C175_first_partial), in particular for one limiter (C175_one_partial)."},
{"property": "C176", "status": "partial", "theorems": ["Gears.Conform.Thin.C176_bucket_partial", "Gears.Conform.Thin.C176_back_violated", "Gears.Conform.Thin.C176_atomic_partial", "Gears.Conform.Thin.C176_sliding", "Gears.Conform.Thin.C176_sliding_run", "Gears.Conform.Thin.C176_fixed", "Gears.Conform.Thin.C176_breaker", "Gears.Conform.Thin.C176_redis_partial", "Gears.Conform.Thin.C176_redis_violated"], "note": "Holds for the sliding window (C176_sliding, C176_sliding_run), the fixed window (C176_fixed) and the circuit breaker (C176_breaker), whatever the clock shows. Violated for the token bucket when the clock goes back (C176_back_violated: a refused call then takes tokens that are not there); it holds for clocks that do not (C176_bucket_partial; C176_atomic_partial for the atomic one, calls one after the other). Violated for the redis limiter by design: the first refused call blocks the key (C176_redis_violated); calls refused because of a block that exists leave no trace and do not prolong it (C176_redis_partial)."},
{"property": "C177", "status": "partial", "theorems": ["Gears.CircuitBreaker.Tolerant.C177_first_partial", "Gears.CircuitBreaker.Tolerant.C177_outage_partial", "Gears.CircuitBreaker.Tolerant.C177_violated", "Gears.CircuitBreaker.Tolerant.C177_timeout_violated", "Gears.CircuitBreaker.Tolerant.C177_count_violated", "Gears.CircuitBreaker.Tolerant.C177_many_violated"], "note": "Violated: the task that the tolerant breaker starts may fail and keep it open longer, so it can refuse calls that the other lets run, with a higher threshold (C177_violated) or a shorter timeout (C177_timeout_violated), and as many more as one likes (C177_count_violated, C177_many_violated). What holds: until the other breaker refuses its first call both do the same, for concurrent calls too (C177_first_partial); and while all tasks fail and the clock does not go back, the tolerant one refuses at most as many calls up to every moment (C177_outage_partial)."},
{"property": "C178", "status": "partial", "theorems": ["Gears.Confstore.Keys.C178_keys", "Gears.Confstore.Keys.C178_order", "Gears.Confstore.Keys.C178_reads_violated", "Gears.Confstore.Keys.C178_reads_partial"], "note": "Proved for all calls that change the store and for loads (C178_keys, C178_order). Violated for reads with a load policy that has a minimum interval: the read of another key loads all keys, so the load of the next read is left out and it returns an old value that it would not return otherwise (C178_reads_violated). Without a policy, and if nobody has written the key in between, the read of another key does not matter (C178_reads_partial)."},
{"property": "C179", "status": "partial", "theorems": ["Gears.Conform.Starve.C179_sliding_violated", "Gears.Conform.Starve.C179_bucket_violated", "Gears.Conform.Starve.C179_fixed_violated", "Gears.Conform.Starve.C179_sliding_partial", "Gears.Conform.Starve.C179_fixed_partial", "Gears.Conform.Starve.C179_bucket_partial"], "note": "Violated for all three limiters and all parameters (C179_sliding_violated, C179_bucket_violated, C179_fixed_violated): there is no queue, so another caller who always comes first takes every permit. Proved: the caller gets through when the others stop (C179_sliding_partial, C179_bucket_partial, C179_fixed_partial)."},
{"property": "C180", "status": "proved", "theorems": ["Gears.Conform.Sharp.C180_atomic", "Gears.Conform.Somebody.C180_sliding", "Gears.Conform.Somebody.C180_fixed", "Gears.Conform.Somebody.C180_bucket", "Gears.Conform.Somebody.C180_rate_zero"], "note": "Together with C179: one caller may be refused for ever, all of them together may not. The theorem for the fixed window has no assumption on the window, but the model is only faithful for a positive one (see FixedWindow/Model.lean). For AtomicTokenBucket it is proved when calls do not overlap (C180_atomic)."}
]}
