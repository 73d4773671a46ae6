{"id": "C01", "title": "SyncTokenBucket total admission bound", "statement": "For a SyncTokenBucket created with capacity c and issuing rate r at time t0, the number of Acquire() calls that returned true up to clock reading t is at most c + r * floor((t - t0) / 1s).", "quantifier": "all capacities c >= 0, rates r >= 0, start times and finite sequences of Acquire calls with a non-decreasing clock", "why_tests_cant": "the bound is over every call pattern and clock; a test samples a few patterns", "anchors": ["ratelimiter/tokenbucket.go:SyncTokenBucket.Acquire", "ratelimiter/tokenbucket.go:SyncTokenBucket.issueIfNecessary", "ratelimiter/tokenbucket.go:NewSyncTokenBucket"]}
{"id": "C02", "title": "SyncTokenBucket burst bound over any time span", "statement": "Among any consecutive Acquire() calls whose clock readings span at most w, at most c + 1 + r * (floor(w/1s) + 1) return true. (The naive bound c for a zero-length burst is false: a bucket idle for at least one second while full admits c+1 at one instant.)", "quantifier": "all capacities, rates, histories, and contiguous sub-histories with a non-decreasing clock", "why_tests_cant": "ranges over every window of every history", "anchors": ["ratelimiter/tokenbucket.go:SyncTokenBucket.Acquire", "ratelimiter/tokenbucket.go:SyncTokenBucket.issueIfNecessary"]}
{"id": "C03", "title": "SyncTokenBucket never rejects before capacity is spent", "statement": "An Acquire() that returns false is preceded by at least c successful Acquire() calls; in particular the first c calls all succeed.", "quantifier": "all capacities, rates >= 0 and histories with a non-decreasing clock", "why_tests_cant": "every history prefix must satisfy it", "anchors": ["ratelimiter/tokenbucket.go:SyncTokenBucket.Acquire"]}
{"id": "C04", "title": "SyncTokenBucket recovers after a rejection", "statement": "If Acquire() is rejected at clock reading t and the next Acquire() happens at t' >= t + 1s, that next call succeeds (capacity >= 1, rate >= 1).", "quantifier": "all histories ending in a rejection and all later times", "why_tests_cant": "unbounded histories and times", "anchors": ["ratelimiter/tokenbucket.go:SyncTokenBucket.Acquire", "ratelimiter/tokenbucket.go:SyncTokenBucket.issueIfNecessary"]}
{"id": "C05", "title": "AtomicTokenBucket behaves like SyncTokenBucket when not contended", "statement": "For any sequence of non-overlapping Acquire() calls the AtomicTokenBucket returns exactly the decisions the SyncTokenBucket returns for the same clock readings.", "quantifier": "all capacities, rates, start times and clock sequences (even non-monotone)", "why_tests_cant": "equivalence over all histories", "anchors": ["ratelimiter/tokenbucket.go:AtomicTokenBucket.Acquire", "ratelimiter/tokenbucket.go:AtomicTokenBucket.issueIfNecessary", "ratelimiter/tokenbucket.go:SyncTokenBucket"]}
{"id": "C06", "title": "AtomicTokenBucket never holds more than capacity tokens", "statement": "Under every interleaving of concurrent Acquire() calls with a non-decreasing clock, the tokens available to callers never exceed the capacity, so no more than c Acquire() calls can succeed between two issuing events.", "quantifier": "all numbers of goroutines, all interleavings of their atomic operations, all clock advances", "why_tests_cant": "schedules are unbounded and races are rare", "anchors": ["ratelimiter/tokenbucket.go:AtomicTokenBucket.Acquire", "ratelimiter/tokenbucket.go:AtomicTokenBucket.issueIfNecessary"]}
{"id": "C07", "title": "AtomicTokenBucket total admission bound under concurrency", "statement": "Under every interleaving the number of successful Acquire() calls up to clock reading t is at most c + r * floor((t - t0)/1s).", "quantifier": "all numbers of goroutines and all interleavings", "why_tests_cant": "depends on rare interleavings of two compare-and-swaps with a rollback", "anchors": ["ratelimiter/tokenbucket.go:AtomicTokenBucket.Acquire", "ratelimiter/tokenbucket.go:AtomicTokenBucket.issueIfNecessary"]}
{"id": "C08", "title": "SlidingWindow never admits more than capacity in any window", "statement": "For a sliding window of capacity c > 0 and size W, any closed time interval of length W contains at most c clock readings of admitted requests, even when goroutines reach the lock in a different order from the one in which they read the clock.", "quantifier": "all capacities, window sizes, intervals and sequences of (possibly out-of-order) clock readings", "why_tests_cant": "quantifies over all windows of all histories and over lock-acquisition order", "anchors": ["ratelimiter/slidingwindow.go:SyncSlidingWindow.Acquire"]}
{"id": "C09", "title": "SlidingWindow decisions are exactly those of the request log", "statement": "With a non-decreasing clock, Acquire() at time t returns true iff fewer than c previously admitted requests have a timestamp in [t - W, t].", "quantifier": "all histories with a non-decreasing clock", "why_tests_cant": "exact characterisation (no over- and no under-admission) over all histories", "anchors": ["ratelimiter/slidingwindow.go:SyncSlidingWindow.Acquire", "ratelimiter/slidingwindow.go:NewSyncSlidingWindow"]}
{"id": "C10", "title": "SlidingWindow reconfiguration is safe", "statement": "After any history of Acquire and UpdateConfig calls, from the last UpdateConfig(c, W) on, any interval of length W contains at most max(c,0) admitted requests (c > 0); Capacity() and WindowSize() return the last configured values (negative capacity reads as 0) and capacity 0 means unlimited; Acquire never panics. If no capacity configured before was lower than the present one, decisions after reconfigurations are exactly those of the log of all requests admitted so far (non-decreasing clock).", "quantifier": "all interleavings of Acquire and UpdateConfig calls", "why_tests_cant": "all reconfiguration histories including shrink, grow and disable", "anchors": ["ratelimiter/slidingwindow.go:SyncSlidingWindow.UpdateConfig", "ratelimiter/slidingwindow.go:SyncSlidingWindow.Acquire", "ratelimiter/slidingwindow.go:SyncSlidingWindow.Capacity", "ratelimiter/slidingwindow.go:SyncSlidingWindow.WindowSize"]}
{"id": "C11", "title": "FixedWindow admits at most capacity per interval", "statement": "With a non-decreasing clock, each interval ((k-1)W, kW] contains at most max(c,0) admitted requests.", "quantifier": "all capacities, W > 0, histories and interval indexes k", "why_tests_cant": "all histories and all intervals", "anchors": ["ratelimiter/fixedwindow.go:SyncFixedWindow.Acquire", "ratelimiter/fixedwindow.go:SyncFixedWindow.reset", "ratelimiter/fixedwindow.go:SyncFixedWindow.contains"]}
{"id": "C12", "title": "FixedWindow worst-case burst", "statement": "With a non-decreasing clock, any time interval of length less than W contains at most 2c admitted requests, and 2c is attained.", "quantifier": "all capacities, window sizes, histories and intervals", "why_tests_cant": "all intervals of all histories", "anchors": ["ratelimiter/fixedwindow.go:SyncFixedWindow.Acquire", "ratelimiter/fixedwindow.go:FixedWindow doc comment"]}
{"id": "C13", "title": "FixedWindow rejects only when the interval is used up", "statement": "An Acquire() at time t returns false only if exactly c earlier requests were admitted in the same interval ((k-1)W, kW] that contains t.", "quantifier": "all histories with a non-decreasing clock", "why_tests_cant": "all histories", "anchors": ["ratelimiter/fixedwindow.go:SyncFixedWindow.Acquire", "ratelimiter/fixedwindow.go:SyncFixedWindow.reset"]}
{"id": "C14", "title": "FixedWindow float64 interval arithmetic is exact", "statement": "The interval end computed with float64 division and math.Ceil equals the exact ceiling, so the new interval contains the request that opened it.", "quantifier": "all elapsed times ts - until and window sizes representable as int64", "why_tests_cant": "float rounding errors show up only for particular huge operands", "anchors": ["ratelimiter/fixedwindow.go:SyncFixedWindow.reset"]}
{"id": "C15", "title": "TtlRateLimiter keeps blocking for the whole timeout", "statement": "Once ShouldBlock2(key, blockKey, msg) returned Triggered at redis time T with timeout e seconds, every ShouldBlock2 on the same blockKey (any key) at redis time before T + e seconds returns Block=true, Triggered=false and the original msg, whatever other limiter calls happen in between.", "quantifier": "all histories of limiter calls on a shared redis, all keys, all clocks", "why_tests_cant": "unbounded histories over a shared store with expiry", "anchors": ["ratelimiter/ttl_ratelimiter_redis.go:script1", "ratelimiter/ttl_ratelimiter_redis.go:redisTtlRateLimiter.ShouldBlock2Context"]}
{"id": "C16", "title": "TtlRateLimiter releases the block at the timeout", "statement": "IsBlocked(blockKey) (non-cluster) at a redis time strictly later than T + e, T being the last trigger, returns Block=false, and never reports a block that was not triggered.", "quantifier": "all histories of limiter calls", "why_tests_cant": "unbounded histories with expiry", "anchors": ["ratelimiter/ttl_ratelimiter_redis.go:script1", "ratelimiter/ttl_ratelimiter_redis.go:script2", "ratelimiter/ttl_ratelimiter_redis.go:redisTtlRateLimiter.IsBlockedContext"]}
{"id": "C17", "title": "TtlRateLimiter admission bound", "statement": "With client and redis clocks in step and params fixed (capacity c, window w, timeout e), at most c requests of one key pass in any w-second interval of client seconds, provided w < 2e.", "quantifier": "all histories of calls for the key, interleaved with calls for other keys", "why_tests_cant": "unbounded histories; depends on the interplay of list length, window and key expiry", "anchors": ["ratelimiter/ttl_ratelimiter_redis.go:script1"]}
{"id": "C18", "title": "TtlRateLimiter results are legal and blocking triggers once", "statement": "Every result is one of: (false,false,0,\"\"); (true,true,ttl>0,msg); (true,false,ttl>0,msg); and within one blocking period exactly one call reports Triggered=true.", "quantifier": "all histories of limiter calls", "why_tests_cant": "all histories and expiry instants (sub-second remainders)", "anchors": ["ratelimiter/ttl_ratelimiter.go:Result", "ratelimiter/ttl_ratelimiter_redis.go:script1", "ratelimiter/ttl_ratelimiter_redis.go:script2"]}
{"id": "C19", "title": "TtlRateLimiter key isolation", "statement": "Calls for (key, blockKey) do not change the outcome of calls for (key', blockKey') with key' != key and blockKey' != blockKey.", "quantifier": "all pairs of distinct keys and all states", "why_tests_cant": "all key strings, including those that collide through the prefix/suffix scheme", "anchors": ["ratelimiter/ttl_ratelimiter_redis.go:prefix", "ratelimiter/ttl_ratelimiter_redis.go:suffix", "ratelimiter/ttl_ratelimiter_redis.go:redisTtlRateLimiter.ShouldBlock2Context"]}
{"id": "C20", "title": "IsBlocked agrees with ShouldBlock", "statement": "In every state, IsBlocked(blockKey) reports Block=true iff ShouldBlock2(key, blockKey, ..) would report an already existing block, for standalone and cluster limiters alike. ShouldBlock with one key behaves accordingly: a block it triggers is seen by IsBlocked of that key with its message until it ends, and apart from the list and the block of that key it changes nothing in redis.", "quantifier": "all states, keys, and hash tags", "why_tests_cant": "relates two methods in all states; the cluster variant has no test", "anchors": ["ratelimiter/ttl_ratelimiter_redis.go:redisTtlRateLimiter.IsBlockedContext", "ratelimiter/ttl_ratelimiter_redis.go:redisTtlRateLimiter.ShouldBlock2Context", "ratelimiter/ttl_ratelimiter_redis.go:NewRedisTtlRateLimiterCluster"]}
{"id": "C21", "title": "TtlRateLimiter is a no-op when unset and fails open", "statement": "If capacity, window or timeout is <= 0 then ShouldBlock passes every request and does not touch redis; if redis returns an error the request passes.", "quantifier": "all parameter values, keys and redis states", "why_tests_cant": "all parameter combinations", "anchors": ["ratelimiter/ttl_ratelimiter.go:isParamsNotSet", "ratelimiter/ttl_ratelimiter_redis.go:redisTtlRateLimiter.ShouldBlock2Context"]}
{"id": "C22", "title": "Cluster limiter keys share one slot", "statement": "The two redis keys used by one cluster-mode ShouldBlock2 call always hash to the same cluster slot.", "quantifier": "all keys, block keys and hash tags", "why_tests_cant": "all strings, including those containing braces", "anchors": ["ratelimiter/ttl_ratelimiter_redis.go:NewRedisTtlRateLimiterCluster", "ratelimiter/ttl_ratelimiter_redis.go:redisTtlRateLimiter.ShouldBlock2Context"]}
{"id": "C23", "title": "Circuit breaker decides by consecutive failures and elapsed time", "statement": "For sequential Do calls: the task runs iff fewer than threshold failures happened since the last success, or more than resetTimeout has elapsed since the last failure; otherwise onOpen runs.", "quantifier": "all thresholds, timeouts, and histories of task outcomes and clock readings", "why_tests_cant": "all histories", "anchors": ["circuitbreaker/circuitbreaker.go:SyncCircuitBreaker.Do", "circuitbreaker/circuitbreaker.go:SyncCircuitBreaker.state", "circuitbreaker/circuitbreaker.go:SyncCircuitBreaker.recordFailure", "circuitbreaker/circuitbreaker.go:SyncCircuitBreaker.reset"]}
{"id": "C24", "title": "Circuit breaker callbacks fire exactly once", "statement": "Each Do invokes exactly one of task and onOpen, exactly once; onError is invoked exactly once, with the task's error and after the failure is recorded, iff the task ran and failed.", "quantifier": "all breaker states, tasks and interleavings", "why_tests_cant": "all states and schedules", "anchors": ["circuitbreaker/circuitbreaker.go:SyncCircuitBreaker.Do"]}
{"id": "C25", "title": "Circuit breaker opens exactly after threshold completed failures under concurrency", "statement": "Under every interleaving of concurrent Do calls, a Do that starts is refused iff at least threshold tasks failed since the last task success (in completion order) and no more than resetTimeout passed since the last failure.", "quantifier": "all numbers of goroutines and interleavings of Do", "why_tests_cant": "schedules", "anchors": ["circuitbreaker/circuitbreaker.go:SyncCircuitBreaker"]}
{"id": "C26", "title": "An open breaker stays open for resetTimeout", "statement": "Once the breaker refuses a call, no task is started until more than resetTimeout after the last recorded failure.", "quantifier": "all interleavings of concurrent Do calls", "why_tests_cant": "violations need an in-flight call to succeed late", "anchors": ["circuitbreaker/circuitbreaker.go:SyncCircuitBreaker.Do", "circuitbreaker/circuitbreaker.go:SyncCircuitBreaker.reset"]}
{"id": "C27", "title": "NeverOpen always runs the task", "statement": "NeverOpen.Do always runs the task exactly once, never calls onOpen, and calls onError exactly once iff the task failed.", "quantifier": "all tasks and histories", "why_tests_cant": "all histories", "anchors": ["circuitbreaker/circuitbreaker.go:neverOpen.Do"]}
{"id": "C28", "title": "Semaphore permits bound", "statement": "Under every schedule of Acquire, TryAcquire and Release, the number of successful acquisitions minus the number of releases that freed a permit is between 0 and the number of permits, for both semaphores.", "quantifier": "all permit counts, goroutines and schedules", "why_tests_cant": "schedules", "anchors": ["concurrent/sema.go:ChanSemaphore", "concurrent/sema.go:LockSemaphore"]}
{"id": "C29", "title": "Over-release is harmless", "statement": "A Release when no permit is held has no effect: any later behaviour is the same as without it (permits >= 1).", "quantifier": "all states and continuations", "why_tests_cant": "all continuations", "anchors": ["concurrent/sema.go:ChanSemaphore.Release", "concurrent/sema.go:LockSemaphore.Release"]}
{"id": "C30", "title": "TryAcquire is exact and never blocks", "statement": "TryAcquire completes without waiting for any other goroutine's release, and returns true iff a permit is available at its linearization point.", "quantifier": "all reachable states", "why_tests_cant": "all states and schedules", "anchors": ["concurrent/sema.go:ChanSemaphore.TryAcquire", "concurrent/sema.go:LockSemaphore.TryAcquire"]}
{"id": "C31", "title": "Semaphores lose no wakeups", "statement": "Whenever a permit is available, no goroutine blocked in Acquire is left asleep: each blocked goroutine is already able to proceed to re-check or hold the permit; and a release with blocked acquirers lets one of them finish.", "quantifier": "all reachable states under all schedules", "why_tests_cant": "lost wake-ups appear only in rare schedules", "anchors": ["concurrent/sema.go:LockSemaphore.Acquire", "concurrent/sema.go:LockSemaphore.Release", "concurrent/sema.go:ChanSemaphore.Acquire"]}
{"id": "C32", "title": "ChanSemaphore and LockSemaphore agree", "statement": "For permits >= 1, both semaphores return the same TryAcquire results and block the same Acquire calls for every sequence of operations.", "quantifier": "all operation sequences; the degenerate permits = 0 is covered separately", "why_tests_cant": "equivalence over all histories", "anchors": ["concurrent/sema.go:ChanSemaphore", "concurrent/sema.go:LockSemaphore"]}
{"id": "C33", "title": "Receivers see events in order, without duplication or invention", "statement": "What a receiver reads from Receiver.C is a subsequence of the events sent to FanOutBus.C, in sending order (one GoDispatch).", "quantifier": "all schedules of senders, dispatcher, registrations, closes and readers", "why_tests_cant": "schedules", "anchors": ["event/bus.go:FanOutBus.doDispatch", "event/bus.go:Receiver.onEvent"]}
{"id": "C34", "title": "Block receivers lose nothing while registered", "statement": "A Block-strategy receiver gets every event whose dispatch began while it was registered and that finished dispatching, with no gaps.", "quantifier": "all schedules", "why_tests_cant": "schedules", "anchors": ["event/bus.go:Receiver.onEvent", "event/bus.go:FanOutBus.doDispatch"]}
{"id": "C35", "title": "Dispatching never panics", "statement": "No schedule of NewRecv, Receiver.Close, FanOutBus.Close and dispatching makes the dispatcher send on a closed channel.", "quantifier": "all schedules", "why_tests_cant": "the send/close race is schedule dependent", "anchors": ["event/bus.go:FanOutBus.doDispatch", "event/bus.go:FanOutBus.deregisterRecv", "event/bus.go:FanOutBus.Close"]}
{"id": "C36", "title": "Drop receivers never stall the bus", "statement": "If every registered receiver uses Drop, dispatching an event always completes regardless of what readers do, and an event is dropped for a receiver only when its buffer is full and no reader is waiting.", "quantifier": "all reachable states", "why_tests_cant": "all states", "anchors": ["event/bus.go:Receiver.onEvent"]}
{"id": "C37", "title": "Bus Close closes and deregisters everyone", "statement": "After FanOutBus.Close returns, every receiver that was registered has a closed channel (buffered events remain readable), no receiver is registered, and no event is delivered any more to those receivers.", "quantifier": "all schedules", "why_tests_cant": "schedules", "anchors": ["event/bus.go:FanOutBus.Close"]}
{"id": "C38", "title": "Receiver Close affects only that receiver", "statement": "Receiver.Close closes that receiver's channel and no other, and never panics.", "quantifier": "all histories of registrations and closes", "why_tests_cant": "histories with reused names or repeated closes", "anchors": ["event/bus.go:Receiver.Close", "event/bus.go:FanOutBus.deregisterRecv", "event/bus.go:FanOutBus.NewRecvStrategy"]}
{"id": "C39", "title": "Drain returns exactly what is buffered", "statement": "Receiver.Drain() without concurrent activity returns precisely the buffered events in order, leaves the buffer empty, and terminates on open and closed receivers alike.", "quantifier": "all buffer contents, open or closed", "why_tests_cant": "all contents", "anchors": ["event/bus.go:Receiver.Drain"]}
{"id": "C40", "title": "CollectTimeout returns only events", "statement": "Receiver.CollectTimeout returns a list of events that were dispatched to the receiver, in order, and nothing else.", "quantifier": "all schedules, including a receiver closed before or during the call", "why_tests_cant": "schedules", "anchors": ["event/bus.go:Receiver.CollectTimeout"]}
{"id": "C41", "title": "Task lifecycle", "statement": "For any sequence of Start and Stop calls (in any interleaving), the first Start succeeds and every other Start fails; Stop succeeds exactly once and only after Start; the stop signal channel is closed at most once (no panic). MustStart/MustStop panic exactly when Start/Stop return an error.", "quantifier": "all call sequences", "why_tests_cant": "all call sequences", "anchors": ["schedule/task.go:taskCommon.markStart", "schedule/task.go:taskCommon.markStopSendSignal", "schedule/fixed_delay_task.go:Start", "schedule/fixed_delay_task.go:Stop", "schedule/fixed_rate_task.go:Start", "schedule/fixed_rate_task.go:Stop"]}
{"id": "C42", "title": "FixedDelayTask jobs never overlap", "statement": "Under every schedule at most one job of a FixedDelayTask is running at any moment, and jobs are numbered 1,2,3,... without gaps.", "quantifier": "all schedules of the consumer, timers, Stop and job completion", "why_tests_cant": "schedules", "anchors": ["schedule/fixed_delay_task.go:FixedDelayTask.startConsuming", "schedule/task.go:taskCommon.runJob"]}
{"id": "C43", "title": "FixedDelayTask waits the interval between jobs", "statement": "Job n+1 starts no earlier than interval after job n finished.", "quantifier": "all schedules and timer delays", "why_tests_cant": "schedules and timing", "anchors": ["schedule/fixed_delay_task.go:FixedDelayTask.appendJobQueueFuture", "schedule/fixed_delay_task.go:FixedDelayTask.startConsuming"]}
{"id": "C44", "title": "No job starts after Stop", "statement": "Once Stop has returned no further job starts.", "quantifier": "all schedules", "why_tests_cant": "needs Stop to land in a small window", "anchors": ["schedule/fixed_delay_task.go:FixedDelayTask.startConsuming", "schedule/fixed_rate_task.go:FixedRateTask.startConsuming", "schedule/task.go:taskCommon.runJob"]}
{"id": "C45", "title": "Running jobs are told to cancel", "statement": "If Stop is called or the timeout passes while a job runs, the job's cancel channel is (or becomes) closed; the task waits for the job function to return before it goes on; the cancel channel is not closed before stop, timeout or completion.", "quantifier": "all schedules of job, timeout and stop", "why_tests_cant": "schedules", "anchors": ["schedule/task.go:taskCommon.runJob"]}
{"id": "C46", "title": "FixedRateTask submits one job per tick", "statement": "The number of jobs started by a FixedRateTask never exceeds one plus the number of ticks delivered, job numbers are distinct, and a slow job does not delay the next submission.", "quantifier": "all schedules", "why_tests_cant": "schedules", "anchors": ["schedule/fixed_rate_task.go:FixedRateTask.startProviding", "schedule/fixed_rate_task.go:FixedRateTask.startConsuming"]}
{"id": "C47", "title": "Stopping leaves no goroutine behind", "statement": "After Stop, from every reachable state, the task's own goroutines (consumer, provider, timers) can all finish once running jobs return; none is blocked forever.", "quantifier": "all reachable states after Stop", "why_tests_cant": "schedules", "anchors": ["schedule/task.go:taskCommon.appendJobQueue", "schedule/fixed_delay_task.go:startConsuming", "schedule/fixed_rate_task.go:startProviding"]}
{"id": "C48", "title": "TaskManager registry", "statement": "A name is registered at most once; Register of a present name fails without effect; Unregister/UnregisterAll stop the tasks and free their names, after which the names can be registered again.", "quantifier": "all sequences of Register, Unregister, UnregisterAll", "why_tests_cant": "all histories", "anchors": ["schedule/task_manager.go:taskManager.Register", "schedule/task_manager.go:taskManager.Unregister", "schedule/task_manager.go:taskManager.UnregisterAll"]}
{"id": "C49", "title": "Failed Register leaves the manager unchanged", "statement": "If Register fails (error or panic because the task cannot start) the name is not left registered.", "quantifier": "all tasks and manager states", "why_tests_cant": "all states", "anchors": ["schedule/task_manager.go:taskManager.Register"]}
{"id": "C50", "title": "Flag and env naming convention", "statement": "The flag name of a field path is the dash-joined lower-case words of the path and the env name is the underscore-joined upper-case words, where words are split at dots and before upper-case letters.", "quantifier": "all field paths", "why_tests_cant": "all strings", "anchors": ["conf/string.go:flagStyle", "conf/string.go:envStyle"]}
{"id": "C51", "title": "Env name is the upper-cased flag name", "statement": "For dash-free paths the env name is obtained from the flag name by upper-casing and replacing '-' by '_'; flag names contain no ASCII upper-case letter, env names no ASCII lower-case letter and neither contains a dot.", "quantifier": "all byte strings", "why_tests_cant": "all strings", "anchors": ["conf/string.go:flagStyle", "conf/string.go:envStyle", "conf/string.go:lowerASCII", "conf/string.go:upperASCII"]}
{"id": "C52", "title": "Two fields share a flag name iff their paths differ only in dots", "statement": "For paths of exported fields, two fields get the same flag (and env) name exactly when the paths are equal after deleting the dots.", "quantifier": "all pairs of exported field paths", "why_tests_cant": "all pairs of strings", "anchors": ["conf/string.go:flagStyle", "conf/string.go:envStyle"]}
{"id": "C53", "title": "initStruct allocates exactly the exported pointers", "statement": "After initialisation every pointer reachable through exported struct fields is non-nil, every other value is unchanged, and a second run changes nothing.", "quantifier": "all (non-recursive) struct types and values", "why_tests_cant": "all types and values", "anchors": ["conf/reflect.go:initStruct", "conf/reflect.go:initPtrValue"]}
{"id": "C54", "title": "Every supported exported field is bound exactly once, under its path", "statement": "After initialisation the field visitor is called exactly once for every field of supported kind reachable through exported fields, with the dot-joined path in which embedded structs contribute nothing.", "quantifier": "all struct types and values", "why_tests_cant": "all types", "anchors": ["conf/reflect.go:visitExportedFields", "conf/reflect.go:visitExportedFieldsPath"]}
{"id": "C55", "title": "Configuration precedence", "statement": "After conf.Load each bound field holds the flag value if the flag was given, else the environment value if set, else the yaml value if present, else its initial value.", "quantifier": "all structs, environments, argument lists and yaml documents", "why_tests_cant": "all combinations of sources", "anchors": ["conf/conf.go:Load", "conf/env.go:envResolver.Resolve", "conf/flag.go:flagResolver.Resolve", "conf/yaml.go:yamlFileResolver.Resolve"]}
{"id": "C56", "title": "conf.Load terminates", "statement": "Initialisation terminates for every struct type.", "quantifier": "all struct types, including self-referential ones", "why_tests_cant": "all types", "anchors": ["conf/reflect.go:initPtrValue"]}
{"id": "C57", "title": "Store reads return the last accepted update", "statement": "GetValue/GetValueString(key) return the value of the last accepted update since registration or reset, else the default, else miss (noop persistence).", "quantifier": "all histories of store operations", "why_tests_cant": "all histories", "anchors": ["confstore/store.go:defaultImpl.GetValue", "confstore/store.go:defaultImpl.GetValueString", "confstore/store.go:defaultImpl.UpdateNoPersist", "confstore/store.go:defaultImpl.ResetKey", "confstore/store.go:defaultImpl.RegisterKey", "confstore/store.go:defaultImpl.DeregisterKey"]}
{"id": "C58", "title": "Typed and string views agree", "statement": "Whenever GetValueString(key) hits with s, GetValue(key) hits with the key's processor's conversion of s, and s was validated by that processor.", "quantifier": "all histories and all persisted contents", "why_tests_cant": "all histories", "anchors": ["confstore/store.go:defaultImpl"]}
{"id": "C59", "title": "Rejected updates have no effect on the store", "statement": "An update of an unregistered key or with an invalid value reports a KVError naming key and value and leaves every key's value unchanged.", "quantifier": "all states and updates", "why_tests_cant": "all states", "anchors": ["confstore/store.go:defaultImpl.UpdateNoPersist"]}
{"id": "C60", "title": "Update persists accepted values", "statement": "After Update(key, value) returns nil the persister holds value for key; a rejected update is not persisted.", "quantifier": "all states, keys, values and persister behaviours", "why_tests_cant": "all states and failure patterns", "anchors": ["confstore/store.go:defaultImpl.Update"]}
{"id": "C61", "title": "BatchUpdate reports and persists exactly", "statement": "BatchUpdate returns exactly one error per rejected pair, in order, applies exactly the accepted pairs in order, and persists exactly the accepted ones. The errors name the key, the value and the reason. Saving reports success iff there was nothing to save or redis said ok.", "quantifier": "all batches, including duplicate keys", "why_tests_cant": "all batches", "anchors": ["confstore/store.go:defaultImpl.BatchUpdate"]}
{"id": "C62", "title": "ResetKey restores the default", "statement": "After ResetKey(key) the key reads as its default and is removed from the persister, so later loads do not resurrect the old value (if the persister's delete succeeds).", "quantifier": "all states", "why_tests_cant": "all states", "anchors": ["confstore/store.go:defaultImpl.ResetKey"]}
{"id": "C63", "title": "Registration discipline", "statement": "RegisterKey fails without effect for an empty key, nil processor, duplicate key or invalid default; DeregisterKey makes the key miss and re-registrable, and is a no-op for unknown keys.", "quantifier": "all states and arguments", "why_tests_cant": "all states", "anchors": ["confstore/store.go:defaultImpl.RegisterKey", "confstore/store.go:defaultImpl.DeregisterKey"]}
{"id": "C64", "title": "Loading applies exactly the valid persisted pairs", "statement": "Loading from the persister sets each registered key with a valid persisted value to that value, leaves all other keys unchanged, in whatever order redis returns the pairs.", "quantifier": "all persisted maps, orders and store states", "why_tests_cant": "all map iteration orders", "anchors": ["confstore/persister.go:redisPersister.Load", "confstore/store.go:defaultImpl.UpdateNoPersist"]}
{"id": "C65", "title": "Load policy spacing", "statement": "With minInterval > 0 two successful loads are at least minInterval apart; failed loads are retried on the next read; with minInterval <= 0 every read loads.", "quantifier": "all call times and load outcomes", "why_tests_cant": "all histories", "anchors": ["confstore/loader.go:defaultLoadPolicy.DoLoad"]}
{"id": "C66", "title": "Store consistency under concurrency", "statement": "Under every interleaving of updates, registrations, deregistrations and reads, a key that is not registered reads as a miss, and string and typed values belong together.", "quantifier": "all interleavings", "why_tests_cant": "schedules", "anchors": ["confstore/store.go:defaultImpl.UpdateNoPersist", "confstore/store.go:defaultImpl.DeregisterKey"]}
{"id": "C67", "title": "Value processors accept exactly the documented values", "statement": "Int processors accept exactly the decimal integers within the configured bounds and convert to that integer; Bool accepts exactly true/false; String accepts exactly byte lengths in [min,max]; Enum exactly the listed values; Convert returns the value validated.", "quantifier": "all strings and bounds", "why_tests_cant": "all strings", "anchors": ["confstore/procs.go:intProcessor", "confstore/procs.go:boolProcessor", "confstore/procs.go:stringProcessor", "confstore/procs.go:enumProcessor"]}
{"id": "C68", "title": "CssColorHex accepts only css hex colors", "statement": "CssColorHex accepts exactly the empty string and strings of the form # followed by six hex digits.", "quantifier": "all strings", "why_tests_cant": "all strings", "anchors": ["confstore/procs.go:cssColorHex.Validate"]}
{"id": "C69", "title": "Printing a config never leaks credentials", "statement": "String() of every credential-bearing config is independent of Username and Password.", "quantifier": "all configs", "why_tests_cant": "all field values", "anchors": ["confs/mysql.go:MysqlConf.String", "confs/postgresql.go:PostgresqlConf.String", "confs/oracle.go:OracleConf.String", "confs/redis.go:RedisConf.String", "confs/es.go:EsConf.String", "confs/pprof.go:PprofConf.String"]}
{"id": "C70", "title": "Printing a config shows its pool limits", "statement": "String() of the SQL configs determines MaxOpenConns and MaxIdleConns.", "quantifier": "all configs", "why_tests_cant": "all field values", "anchors": ["confs/mysql.go:MysqlConf.String", "confs/postgresql.go:PostgresqlConf.String", "confs/oracle.go:OracleConf.String"]}
{"id": "C71", "title": "Connection Params parsing", "statement": "Each well-formed name=escaped-value item of Params ends up as option name with the unescaped value, later items win, malformed items are skipped without affecting others, and Params override computed options and the customizer (postgres, oracle) while the mysql customizer runs last.", "quantifier": "all Params strings", "why_tests_cant": "all strings", "anchors": ["confs/mysql.go:prepareMySqlNativeConfig", "confs/postgresql.go:preparePgUrlOptions", "confs/oracle.go:prepareUrlOptions"]}
{"id": "C72", "title": "pprof is reachable only with the configured credentials", "statement": "The fasthttp pprof handler runs only if username and password are both configured non-empty and the request carries exactly those credentials; with correct colon-free credentials it always runs.", "quantifier": "all configs and Authorization headers", "why_tests_cant": "all headers", "anchors": ["confs/pprof.go:NewFasthttpRoutingPprofHandler", "confs/pprof.go:NewGinPprofBasicAuthFilter"]}
{"id": "C73", "title": "FastHttp client honours the trust mode", "statement": "With SslTrustMode CUSTOM and trust certs set, the client verifies servers against those certs; INSECURE disables verification; otherwise the host roots are used.", "quantifier": "all configs", "why_tests_cant": "all combinations of options", "anchors": ["confs/fasthttpclient.go:NewFastHttpClient"]}
{"id": "C74", "title": "Elasticsearch pool settings are applied to the matching transport fields", "statement": "MaxConnsPerHost limits connections per host and MaxIdleConnsPerHost limits idle connections per host of the transport.", "quantifier": "all configs", "why_tests_cant": "all values", "anchors": ["confs/es.go:NewEsClient"]}
{"id": "C75", "title": "Postgres DSN carries the configured values", "statement": "The DSN built for postgres, when parsed as a URL, yields the configured user, password, host, port, database and options.", "quantifier": "all configs", "why_tests_cant": "all strings", "anchors": ["confs/postgresql.go:buildPgDsn", "confs/postgresql.go:preparePgUrlOptions"]}
{"id": "C76", "title": "PEM normalisation", "statement": "normalising a key text is idempotent, keeps texts that already carry BEGIN and END markers and wraps all others in exactly one BEGIN/END pair of the right type.", "quantifier": "all strings", "why_tests_cant": "all strings", "anchors": ["util/rsa/util.go:normalizePem"]}
{"id": "C77", "title": "Key readers return errors, never panic, on bad input", "statement": "ReadPrivateKey, ReadPublicKey and ReadX509Certificate return an error for every input that is not a key of the expected type, and never panic.", "quantifier": "all inputs", "why_tests_cant": "all byte strings", "anchors": ["util/rsa/util.go:ReadPrivateKeyBytes", "util/rsa/util.go:ReadPublicKeyBytes", "util/rsa/util.go:ReadX509CertificateBytes"]}
{"id": "C78", "title": "Tracing middleware is transparent", "statement": "The tracing middleware runs the rest of the chain exactly once, returns what the chain returned, and ends every span it created exactly once.", "quantifier": "all handlers, options and tracer outcomes", "why_tests_cant": "all outcomes", "anchors": ["skywalking/fasthttp-routing/middleware.go:NewMiddleware"]}
{"id": "C79", "title": "Pipeline span names", "statement": "The operation name of a pipeline span is the command names joined by '|'; the error text is the non-nil error texts joined by '|', and the span is marked as error iff some command failed.", "quantifier": "all command lists", "why_tests_cant": "all lists", "anchors": ["skywalking/redis/hook.go:quickJoin", "skywalking/redis/hook.go:quickJoinError", "skywalking/redis/hook.go:AfterProcessPipeline"]}
{"id": "C80", "title": "Spans are closed and tagged on every path", "statement": "Client span helper and redis hook end each span exactly once, mark it as error iff the call failed (status >= 400 or error), and do nothing without a tracer/span.", "quantifier": "all requests, responses and tracer outcomes", "why_tests_cant": "all outcomes", "anchors": ["skywalking/fasthttp/client_span.go", "skywalking/redis/hook.go:tracerHook"]}
{"id": "C81", "title": "When conf.Load panics", "statement": "conf.Load panics exactly if a bound field has a type declared from a supported type, two bound fields share an env or flag name, a flag name (of a field or the yaml flag) is already defined, or (since Go 1.17) one of the names begins with - or contains =.", "quantifier": "all bound fields, pre-defined flags, yaml flag names and Go versions", "why_tests_cant": "all combinations of names", "anchors": ["conf/conf.go:Load", "conf/env.go:envResolver.init", "conf/flag.go:flagResolver.init"]}
{"id": "C82", "title": "conf.Load succeeds exactly on acceptable input", "statement": "If it does not panic, conf.Load returns exactly if the command line is well formed, all flag and environment values parse and the yaml file named on the command line can be read; otherwise the process exits.", "quantifier": "all command lines, environments and files", "why_tests_cant": "all inputs", "anchors": ["conf/conf.go:Load", "conf/env.go:envResolver.Resolve", "conf/flag.go:flagResolver.Resolve", "conf/yaml.go:yamlFileResolver.Resolve"]}
{"id": "C83", "title": "Batch reads and Must reads agree with single reads", "statement": "If loading changes nothing, BatchGetValues and BatchGetValueString return, in order, exactly the non-empty keys that hit with the value a single read returns, and MustGetValue/MustGetValueString return what the single read returns, panicking exactly if it misses.", "quantifier": "all states and key lists, including duplicates and empty keys", "why_tests_cant": "all lists and states", "anchors": ["confstore/store.go:defaultImpl.BatchGetValues", "confstore/store.go:defaultImpl.BatchGetValueString", "confstore/store.go:defaultImpl.MustGetValue", "confstore/store.go:defaultImpl.MustGetValueString"]}
{"id": "C84", "title": "Escaped connection options arrive unchanged", "statement": "If Params is built as name=QueryEscape(value) items joined by '&' with distinct names free of '&' and '=', every option arrives with exactly its value, whatever bytes the value has.", "quantifier": "all option lists and values, all options set before", "why_tests_cant": "all byte strings", "anchors": ["confs/mysql.go:prepareMySqlNativeConfig", "confs/postgresql.go:preparePgUrlOptions", "confs/oracle.go:prepareUrlOptions"]}
{"id": "C85", "title": "Database handles carry the configured limits", "statement": "A database handle is returned only if opening and pinging succeeded; its pool then has the configured limits (idle connections capped by open ones), and mysql and redis clients get exactly the configured endpoint, credentials and timeouts unless a customizer changes them.", "quantifier": "all configs and connection outcomes", "why_tests_cant": "all values, including negative limits", "anchors": ["confs/mysql.go:NewMySqlDb", "confs/postgresql.go:NewPostgresqlDb", "confs/oracle.go:NewOracleDb", "confs/redis.go:prepareRedisNativeConfig"]}
{"id": "C86", "title": "Extracted public keys can be read back", "statement": "ReadPublicKey and ReadPublicKeyBytes of the text that ExtractPublicKeyPem gives return the same key, if the X.509 parser reads what the X.509 marshaller wrote.", "quantifier": "all keys", "why_tests_cant": "all key encodings and lengths (line breaking, padding)", "anchors": ["util/rsa/util.go:ExtractPublicKeyPem", "util/rsa/util.go:ReadPublicKey"]}
{"id": "C87", "title": "Bare base64 keys are accepted", "statement": "A key given as bare base64 text, with line breaks and blanks at any places and without BEGIN and END lines, is read as what the text encodes by ReadPrivateKey, ReadPublicKey and ReadX509Certificate.", "quantifier": "all base64 texts", "why_tests_cant": "all layouts", "anchors": ["util/rsa/util.go:normalizePem", "util/rsa/util.go:ReadPrivateKey", "util/rsa/util.go:ReadPublicKey", "util/rsa/util.go:ReadX509Certificate"]}
{"id": "C88", "title": "Tracing does not change which handlers run", "statement": "With tracing middlewares anywhere in a chain of handlers, the other handlers run one after the other until one returns an error, aborts or panics, and response and result are the same as without the middlewares.", "quantifier": "all chains, handlers, tracer outcomes", "why_tests_cant": "all chains and outcomes", "anchors": ["skywalking/fasthttp-routing/middleware.go:NewMiddleware"]}
{"id": "C89", "title": "What Load puts into every configuration field", "statement": "If Load returns, every exported basic field reachable from the struct (also through nil pointers and embedded structs) holds the last value given to its flag, else the value of its environment variable, else what the yaml file says, else the value it had before (zero behind new pointers); flag and variable are named after the words of the field path.", "quantifier": "all struct types and values, command lines, environments, yaml effects", "why_tests_cant": "all struct shapes and inputs", "anchors": ["conf/conf.go:Load", "conf/reflect.go:visitExportedFields", "conf/string.go:flagStyle"]}
{"id": "C90", "title": "Which structs cannot be loaded", "statement": "Load panics exactly if a configuration field has a type declared from a basic type, two fields get the same flag or the same environment variable, one of the flags is defined already, or (since Go 1.17) the flag for the yaml file begins with - or contains =. For field names that begin with an ASCII capital and have no underscores, two fields clash exactly if their names written one after the other are the same.", "quantifier": "all struct types and values, flags defined elsewhere", "why_tests_cant": "all struct shapes", "anchors": ["conf/conf.go:Load", "conf/flag.go:init", "conf/env.go:init"]}
{"id": "C91", "title": "Spans carry arguments, bodies and error texts only by option", "statement": "Without the option to report arguments, what the redis hook records is the same whatever the arguments of the commands are; without the option to log errors or 4xx bodies, what hook and client helper record is the same whatever the error text or body is. With the options, the statement of a command is its full text.", "quantifier": "all commands, pipelines, errors, bodies, tracer outcomes", "why_tests_cant": "non-interference: relates two runs for all pairs of secrets", "anchors": ["skywalking/redis/hook.go:tracerHook", "skywalking/fasthttp/client_span.go:EndSpan"]}
{"id": "C92", "title": "Closing a receiver or the bus completes", "statement": "Receiver.Close, FanOutBus.Close and NewRecv never wait for those who read events: they complete after finitely many steps of the dispatchers.", "quantifier": "all reachable states, all schedules, any number of dispatchers, receivers and readers", "why_tests_cant": "deadlock freedom over all interleavings; the deadlock needs a full Block receiver at the moment of Close", "anchors": ["event/bus.go:deregisterRecv", "event/bus.go:doDispatch", "event/bus.go:Close", "event/bus.go:NewRecvStrategy"]}
{"id": "C93", "title": "Calls of the store always complete", "statement": "However many goroutines register, deregister, reset, update, load and read keys of one store at the same time, none of them waits for ever: at any time some goroutine can go on, the total number of steps is bounded, and all calls can be completed, whatever the ValueProcessors do (return or panic).", "quantifier": "any number of goroutines, any calls, any load policy, all schedules, all courses of the calls", "why_tests_cant": "deadlock freedom over all interleavings of three locks with writer preference", "anchors": ["confstore/store.go", "confstore/loader.go:DoLoad"]}
{"id": "C94", "title": "A reset key stays reset", "statement": "When ResetKey(k) has returned, k reads as its default until somebody updates k or writes k into redis again, also while other goroutines load.", "quantifier": "all reachable states, all schedules of any number of goroutines and loads", "why_tests_cant": "needs a reset between the HGETALL and the writes of a load in another goroutine", "anchors": ["confstore/store.go:ResetKey", "confstore/persister.go:Load"]}
{"id": "C95", "title": "Duration texts mean the sum of their terms", "statement": "The duration processor of the store (and duration variables and flags) accepts exactly the texts \"0\" and [+-] followed by terms number-unit (ns, us, µs, μs, ms, s, m, h) whose value fits into 63 bits, and the value is the sum of the terms: exactly if no term has a fraction, with an error of about one nanosecond for each term otherwise.", "quantifier": "all byte strings; all lists of terms", "why_tests_cant": "all texts, with overflow and truncation of long numbers", "anchors": ["confstore/procs.go:durationProcessor", "conf/env.go", "conf/flag.go", "conf/doc.go"]}
{"id": "C96", "title": "A printed duration can be read again", "statement": "The text of a duration, as printed for configurations and documented as default, is accepted as a value of a duration key, variable or flag and gives the same duration.", "quantifier": "all int64 durations", "why_tests_cant": "2^64 values", "anchors": ["confstore/procs.go:durationProcessor", "confs/mysql.go:String", "conf/flag.go"]}
{"id": "C97", "title": "The MySQL configuration reaches the driver", "statement": "NewMySqlDb opens the database with exactly the configured user, password, address, database, timeouts, location, parseTime and Params: the driver reads from the DSN what was configured.", "quantifier": "all configurations, all orders of the Params map", "why_tests_cant": "special characters in every field, all durations; the existing tests need a server", "anchors": ["confs/mysql.go:NewMySqlDb", "confs/mysql.go:prepareMySqlNativeConfig"]}
{"id": "C98", "title": "64-bit arithmetic does not change the limiters", "statement": "With int64 arithmetic the token bucket never admits more than capacity + rate times elapsed seconds, and token bucket and sliding window decide every call as they would without bounds on integers.", "quantifier": "all capacities, rates, windows, reconfigurations and nondecreasing clock readings in int64", "why_tests_cant": "overflow needs huge rates or long times, all combinations", "anchors": ["ratelimiter/tokenbucket.go:issueIfNecessary", "ratelimiter/slidingwindow.go:Acquire"]}
{"id": "C99", "title": "Tracers identify their services, and tracing can be off", "statement": "Without configuration or server address nothing is dialled and a tracer that reports nothing can be made; otherwise the reporter dials ServerAddr. Tracers get the configured instance, and tracers of different namespaces or services are reported under different names.", "quantifier": "all configurations, nil included; all outcomes of dialling", "why_tests_cant": "all pairs of namespaces and names; needs a collector", "anchors": ["skywalking/factory.go:NewGrpcOrNoopReporter", "skywalking/factory.go:NewTracer"]}
{"id": "C100", "title": "The panic helpers report exactly", "statement": "ShouldPanic fails the test iff the function does not panic, ShouldNotPanic iff it panics, ExpectPanic iff it does not panic with a value deeply equal to the expected one; the helpers themselves never panic.", "quantifier": "all ways a function can end, all panic values", "why_tests_cant": "helpers are used by the tests themselves; failing tests cannot be asserted", "anchors": ["testutil/panic.go:ShouldPanic", "testutil/panic.go:ExpectPanic", "testutil/panic.go:ShouldNotPanic"]}
{"id": "C101", "title": "UnmarshalM reads exactly JSON objects", "statement": "UnmarshalM returns a map without an error iff the text is a JSON object (at most 10000 levels, numbers in range), and the map is the one the text stands for: of equal names the last one, escapes and surrogate pairs decoded; any other text is an error.", "quantifier": "all byte strings", "why_tests_cant": "grammar over all byte strings; nesting, escapes and invalid UTF-8 combine without bound", "anchors": ["dto/m.go:UnmarshalM"]}
{"id": "C102", "title": "MarshalM and UnmarshalM are inverse", "statement": "A map written by MarshalM reads back with UnmarshalM as the same map; the text does not depend on the order of map iteration; writing fails only for floats that JSON cannot represent; what has been read can be written and reads the same.", "quantifier": "all maps of nested Go values, all iteration orders", "why_tests_cant": "nested values are unbounded; iteration order is random", "anchors": ["dto/m.go:MarshalM", "dto/m.go:UnmarshalM"]}
{"id": "C103", "title": "Texts of configuration values", "statement": "A text given by flag or environment for an int, int64, uint or uint64 field is accepted iff it is a Go integer literal (with sign for the signed kinds) in the range of the type, for a bool field iff it is one of the twelve boolean texts; the field then holds exactly the number the text stands for, and the decimal text of every number is accepted.", "quantifier": "all byte strings, all numbers, all configurations", "why_tests_cant": "all texts with prefixes, underscores and 64-bit boundaries", "anchors": ["conf/env.go:envResolver.init", "conf/flag.go:flagResolver.init", "conf/conf.go:Load"]}
{"id": "C104", "title": "Texts of MarshalM are UTF-8 and safe inside HTML", "statement": "Whatever bytes the strings and keys of a map consist of, the text that MarshalM writes is valid UTF-8 and contains no control characters and none of <, >, &, U+2028, U+2029.", "quantifier": "all maps of nested Go values with arbitrary byte strings, all iteration orders", "why_tests_cant": "arbitrary bytes in arbitrary nesting", "anchors": ["dto/m.go:MarshalM"]}
{"id": "C105", "title": "The texts of the Lua scripts", "statement": "Both Lua scripts compile. When redis runs their texts, every history of ShouldBlock2 and IsBlocked calls has exactly the results and stored strings of the limiter (so the properties of the limiter hold for the scripts as written), the effect of a call is the one described in the comment of the source, and whatever other values are stored under the keys no call panics.", "quantifier": "all databases, keys, messages, histories, all parameters and times up to 2^52; all contents of the database, also foreign ones, and all parameters for the absence of panics", "why_tests_cant": "all contents of the database and all histories; tests need a redis server", "anchors": ["ratelimiter/ttl_ratelimiter_redis.go:script1", "ratelimiter/ttl_ratelimiter_redis.go:script2", "ratelimiter/ttl_ratelimiter_redis.go:ShouldBlock2Context", "ratelimiter/ttl_ratelimiter_redis.go:IsBlockedContext"]}
{"id": "C106", "title": "LoadScript makes the limiter work on a server", "statement": "Once LoadScript succeeded with a client, calls of limiters on that server are decided by the scripts, whatever else happens on this and other servers; before that nothing is blocked.", "quantifier": "all histories of script loads (also failing ones and those of other programs), flushes and limiter calls on any number of servers; all parameters and times of calls up to 2^52", "why_tests_cant": "histories with several servers, flushes and failing loads; tests load once and use one server", "anchors": ["ratelimiter/ttl_ratelimiter_redis.go:LoadScript", "ratelimiter/ttl_ratelimiter_redis.go:loadScript", "ratelimiter/ttl_ratelimiter_redis.go:ShouldBlock2Context", "ratelimiter/ttl_ratelimiter_redis.go:IsBlockedContext"]}
{"id": "C107", "title": "A yaml file sets the fields that it names", "statement": "If a yaml file is accepted, every variable of the configuration holds afterwards what the file says for it: the value under the lower-cased names on the way to the field (the names that its flag and environment variable are made of), and what it held before if the file has none; a null in the file makes the pointer it is for nil and leaves other variables alone. After Load, a field with neither flag nor environment variable holds this.", "quantifier": "all structs (nested, embedded, with pointers and yaml tags), all trees that a yaml file can stand for, all command lines and environments", "why_tests_cant": "all shapes of structs and files", "anchors": ["conf/yaml.go:yamlFileResolver.Resolve", "conf/conf.go:Load"]}
{"id": "C108", "title": "Which yaml files are accepted", "statement": "A yaml file is accepted iff it fits the configuration: keys are different scalars, scalars for variables are texts for their types, mappings are for structs; unknown keys do not matter. Decoding never panics for a struct that Load accepts without a file.", "quantifier": "all structs, all trees that a yaml file can stand for", "why_tests_cant": "all shapes of structs and files", "anchors": ["conf/yaml.go:yamlFileResolver.Resolve", "conf/conf.go:Load"]}
{"id": "C109", "title": "A text means the same in a yaml file and on the command line", "statement": "A text that is accepted for a field in a yaml file as well as by flag or environment variable gives the field the same value; the integer texts that flags accept are accepted in yaml files.", "quantifier": "all byte strings, all supported types, plain and quoted scalars", "why_tests_cant": "all texts with prefixes, underscores, signs, dates, 64-bit boundaries", "anchors": ["conf/yaml.go:yamlFileResolver.Resolve", "conf/flag.go:flagResolver.init", "conf/env.go:envResolver.init"]}
{"id": "C110", "title": "The bus dispatches every event exactly once and ends after Close", "statement": "A send to FanOutBus.C panics iff Close was called before, Close panics iff it was called before. The events whose send completed are exactly those whose dispatch has begun, those a dispatcher has taken, and those in the channel. After Close the dispatchers end when the channel is empty: they take at most the events left, always have a next step unless they wait for a Block receiver or a goroutine died with the lock, and when all have ended every event sent has been dispatched exactly once.", "quantifier": "all schedules, any number of dispatchers, senders, receivers and readers", "why_tests_cant": "schedules", "anchors": ["event/bus.go:FanOutBus.Close", "event/bus.go:FanOutBus.GoDispatch", "event/bus.go:FanOutBus.doDispatch"]}
{"id": "C111", "title": "Reads see the persisted values", "statement": "GetValue, GetValueString, the Must reads and the batch reads whose (first) load takes place return, for every key, the persisted value if the store accepts it and otherwise what the store has; whichever order redis returns the pairs in, and whether or not the further loads of a batch take place. If the load is skipped by the policy or fails, they return what the store has.", "quantifier": "all stores, persisted values, policies, clock readings, enumeration orders, lists of keys", "why_tests_cant": "all states, orders and interleaved failing loads", "anchors": ["confstore/store.go:defaultImpl.GetValue", "confstore/store.go:defaultImpl.BatchGetValues", "confstore/store.go:defaultImpl.MustGetValue", "confstore/loader.go"]}
{"id": "C112", "title": "The oracle driver finds the configured values in the connection string", "statement": "The URL that NewOracleDb opens is read by the driver as the configured user, password, host, port and service, and as the comma-separated parts of the options. (It fails for user names with a colon and services that begin or end with a slash; the password is arbitrary.)", "quantifier": "all configurations, all option maps, all iteration orders", "why_tests_cant": "all byte strings", "anchors": ["confs/oracle.go:NewOracleDb", "confs/oracle.go:prepareUrlOptions"]}
{"id": "C113", "title": "Exactly the URLs of a fixed grammar pass the Url and UrlString processors", "statement": "Url and UrlString accept the empty text and exactly the texts without control characters that are an asterisk, a path with an optional query, or a scheme followed by anything that does not begin with a slash, by a path, or by // authority and path, with the escapes, user info, hosts, addresses in brackets, zones and ports allowed there; every other text is refused with the same message. Url converts the empty text to nil and every other accepted text to the parts it was composed of; UrlString returns the text. In particular any scheme passes (localhost:8080 is one), a text without scheme and leading slash never does.", "quantifier": "all byte strings", "why_tests_cant": "all texts: the parser has many interacting cases", "anchors": ["confstore/procs.go:urlProcessor.Validate", "confstore/procs.go:urlProcessor.Convert", "confstore/procs.go:urlStringProcessor.Validate", "confstore/procs.go:urlStringProcessor.Convert"]}
{"id": "C114", "title": "Tasks are created only from usable arguments", "statement": "NewFixedDelayTask and NewFixedRateTask return a task iff the name is not blank (Unicode white space), timeout and interval are positive and the job is not nil; the task is new, with the given interval and timeout. Otherwise they panic with the message of the first check that fails. The warning about overlapping jobs is printed for exactly the FixedRateTasks with interval <= timeout.", "quantifier": "all names (byte strings), intervals, timeouts", "why_tests_cant": "all byte strings, including invalid UTF-8 and all Unicode white space", "anchors": ["schedule/fixed_delay_task.go:NewFixedDelayTask", "schedule/fixed_rate_task.go:NewFixedRateTask"]}
{"id": "C115", "title": "Elasticsearch and redis clients are returned only connected", "statement": "NewEsClient returns a client iff it could be created and the ping was answered without error status, and panics otherwise, with the server's text if the status is an error; every response is closed. Its configuration has the comma-separated addresses, user name and password, unless the customizer changes them. NewRedisClient returns a client iff the ping succeeded and ends the process otherwise.", "quantifier": "all configurations, customizers, outcomes of creation and ping", "why_tests_cant": "all configurations and failing servers", "anchors": ["confs/es.go:NewEsClient", "confs/redis.go:NewRedisClient"]}
{"id": "C116", "title": "A saturated SyncTokenBucket issues at its rate", "statement": "While Acquire() keeps being rejected at least once in every second (the bucket is asked for more than it has), the bucket admits its rate: between two rejected calls n seconds apart at least r * (n - 1) calls are admitted, for 1 <= r <= c. (In any case, between two rejected calls at least one second apart at least min(r, c) calls are admitted.)", "quantifier": "all capacities, rates, histories with a non-decreasing clock, and pairs of rejected calls in them", "why_tests_cant": "a lower bound over every history; the loss of fractions of seconds shows only for certain call patterns", "anchors": ["ratelimiter/tokenbucket.go:SyncTokenBucket.Acquire", "ratelimiter/tokenbucket.go:SyncTokenBucket.issueIfNecessary"]}
{"id": "C117", "title": "What a scalar of a yaml file means", "statement": "A plain scalar is a word (true, null, .inf, …), a timestamp, a Go integer literal of 64 bits (underscores anywhere), a decimal float, an integer with its sign after 0b or 0o, or else a string; a quoted scalar is a string. A field stores the integer if it fits its type, the whole float, the bool (also yes/no/on/off/y/n), the duration text, or the text itself; everything else is an error.", "quantifier": "all byte strings, plain and quoted, all supported kinds of fields", "why_tests_cant": "all texts: octal 010 against 08, signs, underscores, exponents, 64-bit boundaries", "anchors": ["conf/yaml.go:yamlFileResolver.Resolve"]}
{"id": "C118", "title": "Calls of an atomic token bucket do not keep each other from finishing", "statement": "With n goroutines, k calls of AtomicTokenBucket.Acquire take at most (7+10n)k atomic operations plus (6+10n)n for every full second since the creation, whatever the interleaving; nothing is ever waited for; so when the goroutines go on, all calls return, each exactly one answer. The bound is for all calls together: others can make a single call try again as often as there are tokens.", "quantifier": "all capacities, rates, numbers of goroutines, schedules and forward movements of the clock", "why_tests_cant": "livelocks of retry loops need unlucky interleavings; a test cannot enumerate all of them", "anchors": ["ratelimiter/tokenbucket.go:AtomicTokenBucket.Acquire", "ratelimiter/tokenbucket.go:AtomicTokenBucket.issueIfNecessary"]}
{"id": "C119", "title": "Floating-point numbers: what texts mean and how they are written", "statement": "A float64 field that is set by a flag or an environment variable accepts a text exactly if it is one of the words for infinity and NaN (in any case) or a floating-point literal of Go, decimal or hexadecimal, with correctly placed underscores, whose value does not round to more than the largest float64; the field then holds the float64 nearest to the value, ties to even. MarshalM writes every finite float64 with the fewest decimal digits (at most 17) that read back as the same number, the nearest such digits to it (the even ones if there are two), as a plain number from 1e-6 up to 1e21 and with an exponent otherwise; the text is a JSON number, UnmarshalM reads it as exactly the same float64, and different floats have different texts. Infinities and NaN are an error. So what UnmarshalM returned can be written and read again without any change, and an integer that is written comes back as the nearest float64, unchanged if it is less than 2^53.", "quantifier": "all byte strings; all float64 values; all maps", "why_tests_cant": "2^64 floats and unboundedly many texts; rounding errors occur for isolated texts near the midpoints of two floats, and non-minimal digits for isolated floats", "anchors": ["/repo/conf/flag.go:58-59", "/repo/conf/env.go:57-58", "/repo/dto/m.go:8-18"]}
{"id": "C120", "title": "Numbers in a yaml file for integer fields are stored exactly or refused", "statement": "When a yaml file has a number for a field of type int, int64, uint or uint64, the field holds exactly this number after Load, or Load refuses the file.", "quantifier": "all scalar texts, quoted or not, all integer field types; decimal texts with fraction, exponent and underscores", "why_tests_cant": "unboundedly many texts; the wrong ones are texts with a point or an exponent near the limits of the types or beyond 53 bits, and fractions, which a test of integers never meets", "anchors": ["/repo/conf/yaml.go:24-38", "/repo/conf/conf.go:53-62"]}
{"id": "C121", "title": "AtomicTokenBucket decides the same in 64-bit arithmetic as in unbounded integers", "statement": "An AtomicTokenBucket whose counters are int64 and wrap around admits and rejects the same calls as one with unbounded counters, for any number of goroutines, so that its bounds (C05, C06, C07) hold of the real code.", "quantifier": "all capacities, rates, creation times, numbers of goroutines, interleavings of their atomic operations with a clock that does not go back", "why_tests_cant": "overflow needs huge rates or debts that no test run reaches, and its effect depends on how the atomic operations of several goroutines interleave", "anchors": ["/repo/ratelimiter/tokenbucket.go:119-177"]}
{"id": "C122", "title": "The PostgreSQL driver connects with what was configured, whatever the environment", "statement": "NewPostgresqlDb makes the driver lib/pq connect with the configured user, password, host, port, database and options: the URL is parsed by net/url, made into a connection string, read again, merged with the environment variables PG..., and none of these changes or adds a setting.", "quantifier": "all configurations, option maps and their iteration orders, and environments of the driver", "why_tests_cant": "the values pass through five nested syntaxes (URL, query escapes, quoted connection string, runes, environment), and a test tries a few names and passwords in one environment", "anchors": ["/repo/confs/postgresql.go:68-101", "/repo/go.mod:18"]}
{"id": "C123", "title": "How many tasks a circuit breaker lets through during an outage", "statement": "From any moment on, as long as no task succeeds and at most n tasks are in progress at once, SyncCircuitBreaker.Do starts at most failureThreshold - 1 + k*n tasks within any k consecutive periods of resetTimeout, however the calls of Do are scheduled, if the clock does not go back.", "quantifier": "all thresholds ≥ 1, timeouts ≥ 0, numbers of concurrent callers, schedules of their steps and readings of a clock that does not go back", "why_tests_cant": "the bound concerns every interleaving of reading the clock, deciding, running and recording; a test runs a few of them, and the half-open state admits any number of callers at once", "anchors": ["/repo/circuitbreaker/circuitbreaker.go:75-119"]}
{"id": "C124", "title": "Which RSA keys are read, and that the extracted public key belongs to them", "statement": "ReadPrivateKey reads every RSA private key in the standard form (RFC 8017, also with more than two primes), as a PEM block or as bare base64, as the key that it is, if it is valid (modulus is the product of the primes, exponents are inverse modulo each prime minus 1, public exponent from 2 to 2^31-1), and gives an error otherwise; every key it returns for any text is valid; ExtractPublicKeyPem of it succeeds and ReadPublicKey reads the result as modulus and exponent of the private key. ReadPublicKey returns only positive moduli and exponents and panics exactly for well-formed DSA, elliptic-curve and Ed25519 keys.", "quantifier": "all integers as parts of a key, all texts, all decoders of blocks that follow a broken one, all public keys of other kinds", "why_tests_cant": "numbers of every length and sign go through two different DER readers with rules on minimal lengths and leading bytes; tests use one or two fixed keys", "anchors": ["/repo/util/rsa/util.go:13-81", "/repo/util/rsa/util.go:112-134"]}
{"id": "C125", "title": "A private key that was read decrypts what its public key encrypts", "statement": "If ReadPrivateKey returns a private key and the public key extracted from it is read, then for every message below the modulus, decrypting with the private exponent what was encrypted with the public exponent gives the message back, and the other way round (signatures).", "quantifier": "all texts that are read as keys, all messages below the modulus", "why_tests_cant": "the statement concerns all messages and all keys; a test tries a few messages with a few keys", "anchors": ["/repo/util/rsa/util.go:21-44", "/repo/util/rsa/util.go:54-81", "/repo/util/rsa/util.go:119-134"]}
{"id": "C126", "title": "Reads return whatever redis holds", "statement": "With the processors of procs.go, GetValue and GetValueString return for every contents of redis and after every sequence of calls: the persisted value if the processor accepts it and a load takes place, otherwise what the store has; something is found exactly for registered keys. The same holds for the batch reads and, for registered keys, the Must reads. No call leaves the lock of the store locked.", "quantifier": "all sequences of calls (panicking ones included) with all processors of procs.go, all keys, texts, load policies and clock readings, all writes of others to redis, all orders of the pairs", "why_tests_cant": "the texts in redis are not under the control of the program; a test would have to try the one kind of text that panics, in a key of one kind, and then read another key", "anchors": ["/repo/confstore/store.go:38-265", "/repo/confstore/loader.go:13-68", "/repo/confstore/persister.go:44-83", "/repo/confstore/procs.go:15-255"]}
{"id": "C127", "title": "Tasks keep their pace", "statement": "The n-th job of a FixedRateTask never starts before n-1 intervals have passed since Start, however its goroutines are scheduled. If they are scheduled without delay, it starts exactly then, however long jobs run, and no tick is lost. The first job of a FixedDelayTask then starts at Start and every other one exactly interval after the end of the one before. A job that runs for its timeout, or after Stop, has been told to cancel as soon as the goroutines had time to do so, and if Stop is called when they have nothing left to do, no job starts afterwards.", "quantifier": "all intervals and timeouts, all schedules of the goroutines, timers and job goroutines, all durations of jobs (also for ever), all times of Start and Stop, all times at which a ticker fires late", "why_tests_cant": "tests with real clocks tolerate deviations and cannot tell a lost tick or a drift from a slow machine; a ticker has a channel of capacity 1 and drops what does not fit", "anchors": ["/repo/schedule/fixed_rate_task.go:78-161", "/repo/schedule/fixed_delay_task.go:73-145", "/repo/schedule/task.go:68-153"]}
{"id": "C128", "title": "The limiter limits with all parameters", "statement": "Whatever positive capacity, window and timeout are configured, capacity calls for a key at one moment pass and the next one blocks, when redis runs the texts of the scripts with the numbers of Lua.", "quantifier": "all positive int64 parameters, all keys with list key and block key different, all messages and times", "why_tests_cant": "parameters that nobody tries: Lua computes with doubles and redis refuses times beyond 64 bits, and errors of redis count as passes", "anchors": ["/repo/ratelimiter/ttl_ratelimiter_redis.go:53-124", "/repo/ratelimiter/ttl_ratelimiter_redis.go:186-209"]}
{"id": "C129", "title": "Processes that share redis agree", "statement": "When several processes have stores with redis persisters on the same hash, all calls have returned and no redis command has failed, then all processes that have registered a key alike read the same value of it, the one redis wrote last.", "quantifier": "any number of processes, all histories of registrations, updates, batches, resets and loads, all interleavings of the steps of batches and loads, all contents of redis in the beginning", "why_tests_cant": "needs several processes and schedules in which their batches and loads overlap; tests have one store and one goroutine", "anchors": ["/repo/confstore/store.go:73-168", "/repo/confstore/store.go:255-265", "/repo/confstore/persister.go:32-83"]}
{"id": "C130", "title": "The log says how a job ended", "statement": "For every job that is over, the log has its start, its error if it returned one, and one last line with the time the job took that says how it ended: canceled by the stop signal or canceled due to the timeout if the cancel channel was closed for that reason when the job returned, finished otherwise.", "quantifier": "all timeouts, all running times and results of the job, stop calls and timer expiries at any moment, all interleavings of the two goroutines of runJob", "why_tests_cant": "the wrong lines depend on the waiting goroutine returning between close(fin) and the reading of the context's error; tests do not read the log", "anchors": ["/repo/schedule/task.go:98-139"]}
{"id": "C131", "title": "The task manager together with its tasks", "statement": "With the tasks of the package: the registry and the results of the calls are as if every call of the manager were one step; every call returns, whatever the jobs do; tasks do not influence each other; when Unregister or UnregisterAll has returned, the tasks that were registered are stopped for good and start no job except those their consumer had already accepted, of which a FixedDelayTask has at most one, and none while a job of it runs.", "quantifier": "any number of tasks of both kinds, all names, all histories of calls of the manager and of the tasks by any goroutines (also those of jobs), all interleavings of the goroutines of the tasks, all orders in which UnregisterAll visits the map", "why_tests_cant": "a call of the manager keeps its lock while it waits for tasks; that no schedule of the goroutines of all tasks blocks it, or makes the registry differ, is a statement about all interleavings", "anchors": ["schedule/task_manager.go:51-86", "schedule/fixed_delay_task.go:73-145", "schedule/fixed_rate_task.go:78-161", "schedule/task.go:68-153"]}
{"id": "C132", "title": "Calls and dispatchers take turns on the lock of the bus", "statement": "With the RWMutex of package sync, in which a goroutine that is in Lock keeps new readers out: NewRecv, Receiver.Close and FanOutBus.Close wait for the dispatchers that have the lock only, never for those that come later; a dispatcher with an event waits for one such call at most, and its event then goes to all the receivers registered after it; without Block receivers all of them get through by their own steps. But a call that comes while a dispatcher waits for a full Block receiver stops the bus: no event is passed on to any receiver before that receiver is read.", "quantifier": "all histories of sends, registrations, closings and reads by any number of goroutines, any number of dispatchers, all interleavings", "why_tests_cant": "who waits for whom in a readers-writer lock shows in rare schedules only; that nobody starves is a statement about all of them", "anchors": ["event/bus.go:27-32", "event/bus.go:62-111"]}
{"id": "C133", "title": "Fixed window and circuit breaker do not overflow", "statement": "In the 64-bit arithmetic of the program (int64, int, and the float64 of the fixed window) every run of SyncFixedWindow with a positive window and clock readings up to the year 2116, and every run of SyncCircuitBreaker with clock readings that span less than 292 years around 1970, is the run with unbounded integers: nothing overflows. A little beyond these limits the limiter lets everybody pass, and the breaker stays open. With a window of 0 the limiter never rejects, whatever the conversion of an infinite float64 to int64 yields.", "quantifier": "all capacities, windows, thresholds and timeouts of 64 bits, all sequences of readings in the range (also decreasing and negative ones), all interleavings of the calls of the breaker", "why_tests_cant": "tests use a few windows and the clock of today; overflow depends on combinations of window and reading, and float64 quotients round differently for every pair", "anchors": ["ratelimiter/fixedwindow.go:46-104", "circuitbreaker/circuitbreaker.go:58-119"]}
{"id": "C134", "title": "Documented names of the configurations of this module", "statement": "Wherever one of the configuration structs of this module (MySQL, Oracle, PostgreSQL, Redis, fasthttp client, Elasticsearch, pprof, SkyWalking) is put into the struct that conf.Load gets, its fields are bound to exactly the environment variables and flags of the tables in their comments, with the prefix of the place; after Load a field that yaml has not replaced holds the value of its flag, without one that of its variable. The tables are right; they omit only the flags of PARAMS and the names of PostgreSQL's DATABASE. Loaded alone, such a struct makes Load panic exactly if the flag of the yaml file is one of its flags.", "quantifier": "all eight structs, all places (behind pointers, embedded, nested), all command lines, environments and yaml files, all initial values", "why_tests_cant": "tests load one invented struct; a renamed field or a change in the splitting of names would silently detach a documented variable", "anchors": ["confs/mysql.go:33-84", "confs/oracle.go:16-59", "confs/postgresql.go:16-57", "confs/redis.go:27-44", "confs/fasthttpclient.go:31-69", "confs/es.go:13-19", "confs/pprof.go:32-37", "skywalking/conf.go:5-10", "conf/string.go:21-72", "conf/reflect.go:80-151"]}
{"id": "C135", "title": "Semaphores serve first come, first served", "statement": "The Acquire calls of a semaphore get permits in the order in which they came. ChanSemaphore does: the calls that have got a permit are the first ones, as many as there are permits plus returned ones minus those that TryAcquire took (or all); a waiting call returns with exactly the Release whose number is its place in the queue, whatever else is called meanwhile. LockSemaphore does not: a waiting call can be passed by any number of later calls, although every Release wakes it and it gets the mutex after each.", "quantifier": "all numbers of permits, all numbers of goroutines and all interleavings of Acquire, TryAcquire and Release", "why_tests_cant": "tests have a handful of goroutines and cannot tell who came first; starvation needs the same unlucky interleaving again and again", "anchors": ["concurrent/sema.go:59-81", "concurrent/sema.go:91-122"]}
{"id": "C136", "title": "A request keeps its trace across services", "statement": "A request that the middleware of the first service records is recorded by all services on its way, if each calls the next with the client helper in the context of its handler: under the trace of the first, each entry referring to the span of the call by which it was reached and naming service, instance, operation and address. Redis commands and calls in a handler are below its span, in its segment. A request not sampled carries no header, and the next service decides anew; a header that cannot be read switches recording off. The redis hook takes the last address and the last database among its options; every command must work with it, whatever the options.", "quantifier": "all numbers of services, all names, hosts, paths, identifiers, sampling decisions and incoming headers, all lists of options", "why_tests_cant": "tests need several services and a collector; names with dashes or other odd bytes, and hooks without an address, are not among them", "anchors": ["skywalking/fasthttp-routing/middleware.go:66-79", "skywalking/fasthttp/client_span.go:41-69", "skywalking/redis/hook.go:30-85"]}
{"id": "C137", "title": "Windows under concurrent calls", "statement": "Acquire of both windows reads the clock before it takes the lock, so calls may overtake each other. Whatever the order: the sliding window admits at most c calls with readings in any W, and decides each call by the c calls admitted in the W before its reading; each interval of the fixed window contains the readings of at most c admitted calls, and a call is refused only if c were admitted.", "quantifier": "all capacities, windows, numbers of goroutines, and interleavings of clock readings and critical sections", "why_tests_cant": "tests call from one goroutine, or cannot place the preemption between line 63 and line 65", "anchors": ["ratelimiter/slidingwindow.go:62-87", "ratelimiter/fixedwindow.go:66-104"]}
{"id": "C138", "title": "TTL limiter: clients whose clocks differ", "statement": "Clients of one redis send their own second as the time of a call. If their clocks differ from each other by at most 2η ms, at most c calls of a key pass in any w seconds of client time, at most c in any 1000w - 2η ms of redis time, and a block begins only if c calls passed within the window before, extended by 2η and a second.", "quantifier": "all capacities, windows, timeouts, differences of clocks, keys, interleavings of clients (also calls of other keys, queries, and calls while redis is down)", "why_tests_cant": "tests use one client and one clock", "anchors": ["ratelimiter/ttl_ratelimiter_redis.go:60-110", "ratelimiter/ttl_ratelimiter_redis.go:186-233"]}
{"id": "C139", "title": "Methods under a lock: no data races, one step each", "statement": "With every read and write of a field a step of its own, and goroutines preempted between any two: no two goroutines access a field at once with one writing, and every history of calls of a sliding or fixed window, a token bucket or a circuit breaker is explained by running the calls one after the other, in an order that respects which call returned before which began. So a sliding window lets at most c calls pass with readings in any W. The script digests of the redis limiter are read and assigned without a lock.", "quantifier": "all numbers of goroutines, calls, schedules, clocks, settings, initial states", "why_tests_cant": "races depend on schedules no test can force; the race detector sees only what it ran", "anchors": ["ratelimiter/slidingwindow.go:62-117", "ratelimiter/fixedwindow.go:66-104", "ratelimiter/tokenbucket.go:67-104", "circuitbreaker/circuitbreaker.go:91-119", "ratelimiter/ttl_ratelimiter_redis.go:127-130", "ratelimiter/ttl_ratelimiter_redis.go:259-275"]}
{"id": "C140", "title": "Store with single instructions: no data races, sections in order, results explained", "statement": "With every access to a map of the store a step of its own, and goroutines preempted between any two: no map is accessed by two goroutines at once with one writing; the critical sections take effect one after the other within their calls; a method returns what follows from its sections; every section sees a state that the atomic steps of C66 reach, and such a state is in memory when no section runs. So a string that GetValueString returns is accepted by a processor that RegisterKey was given for the key, and a value that GetValue returns is made by such a processor from a string it accepts.", "quantifier": "all numbers of goroutines, calls, keys, processors, load decisions, replies of redis, schedules", "why_tests_cant": "races depend on schedules no test can force; the race detector sees only what it ran", "anchors": ["confstore/store.go:38-265", "confstore/persister.go:44-83", "confstore/loader.go:37-56"]}
{"id": "C141", "title": "Tasks with single instructions: no data races, same jobs as with atomic sections", "statement": "With every read and write of status, no and ticker, every Lock and Unlock, every go statement and close(stopSig) a step of its own, and any number of callers of Start, MustStart, Stop and MustStop, the consumer and the provider preempted between any two: no two goroutines access one of these fields at once with one writing, a nil ticker is not used, whoever has the lock can go on (if need be with the consumer that takes the first job), and what happens is what happens when every critical section is one step, up to ticks received between close(stopSig) and ticker.Stop. So at most one call of Start and one of Stop returns nil, stopSig is not closed twice, jobs of a FixedDelayTask do not overlap and are interval apart, and a FixedRateTask starts at most one job more than it received ticks.", "quantifier": "all numbers of callers, intervals, timeouts, schedules, times, job durations", "why_tests_cant": "races depend on schedules no test can force; the race detector sees only what it ran", "anchors": ["schedule/task.go:66-96", "schedule/task.go:141-153", "schedule/fixed_rate_task.go:78-161", "schedule/fixed_delay_task.go:73-145"]}
{"id": "C142", "title": "Bus with single instructions: no data races, Close closes one receiver after the other", "statement": "With Lock, Unlock, RLock, RUnlock, every access to recvMap (in loops: every entry) and every close a step of its own, and any number of goroutines in NewRecvStrategy, Receiver.Close and FanOutBus.Close and any number of dispatchers preempted between any two: no two goroutines access recvMap at once with one changing it; what happens to channels, readers and dispatchers is what happens when every critical section is one step, where FanOutBus.Close is a Close of one receiver after the other; dispatchers and the loop of FanOutBus.Close do not panic; a goroutine with the lock can always go on and comes nearer to its Unlock, unless Receiver.Close panicked; when the loop of FanOutBus.Close is through, the channels of all receivers that were in the map when it began are closed.", "quantifier": "all numbers of goroutines, receivers, dispatchers, readers, capacities, events, schedules, orders of iteration", "why_tests_cant": "races depend on schedules no test can force; the race detector sees only what it ran", "anchors": ["event/bus.go:62-111", "event/bus.go:132-182"]}
{"id": "C143", "title": "Task manager with single instructions: no data races, one step per call, no deadlock with its tasks", "statement": "With locking, unlocking, every access to taskMap (in the loop of UnregisterAll: every entry) and every instruction of MustStart and Stop of the tasks a step of its own, and any number of goroutines (jobs too) that call the manager and the tasks and are preempted between any two: no two goroutines access taskMap at once with one changing it; whenever nobody has the lock, the map, what the calls returned (in the order of the lock) and the statuses of the tasks are those of a manager whose calls are one step each; when a name is removed the stop signal of its task is given; whoever has the lock of the manager can finish, with its own instructions and those of goroutines that have the lock of a task it waits for or that take the first job.", "quantifier": "all numbers of goroutines and tasks, names, kinds of tasks, orders of iteration, schedules", "why_tests_cant": "races and deadlocks depend on schedules no test can force", "anchors": ["schedule/task_manager.go:51-86", "schedule/task.go:64-105"]}
{"id": "C144", "title": "Redis limiter over a network that loses replies: blocks only after capacity other calls, triggers are reported", "statement": "A call sends its command up to MaxRetries+1 times, and redis may execute each transmission late, or without the reply arriving. Whatever is lost: (1) the state of redis and its answers are those of the executed commands, at most MaxRetries+1 per call; (2) a call returns the result of one of its executions or lets through with the zero result; (3) in any window at most capacity calls are let through, the calls without an answer aside; (4) a call that is told it triggered a block comes after capacity other calls of the key that were not blocked; (5) if a call is blocked, some call was told that it triggered the block.", "quantifier": "all numbers of calls, limiters and retries, all orders of sending, executing, losing and delivering, clocks within a band", "why_tests_cant": "a lost reply and a second execution of the same command need a network that fails at the right moment", "anchors": ["ratelimiter/ttl_ratelimiter_redis.go:162-233", "confs/redis_test.go:36"]}
{"id": "C145", "title": "Configuration in redis over a network that delays commands: an answered value stays", "statement": "Stores of any number of processes share a redis hash; a command is sent up to MaxRetries+1 times, and each transmission may be executed at any later time or never. (1) Redis never has a value for a key that it did not have at the beginning and that no call wrote. (2) When all calls that write or delete a key have returned and a further one is answered, its value stays in redis until another call for the key begins; readers that have seen it do not see an older one.", "quantifier": "all numbers of processes, calls and retries, all keys and values, all orders of sending, executing, losing and answering", "why_tests_cant": "a delayed command needs a network that fails at the right moment", "anchors": ["confstore/persister.go:60-83", "confstore/store.go:97-136", "confstore/store.go:255-265"]}
{"id": "C146", "title": "Limiters and breaker in real time, with a wall clock that is set", "statement": "Somebody may set the wall clock back or ahead at any time. In real time, (1) the limiters still admit at most what their capacity, window and rate allow, and the breaker stays open for its timeout; (2) they recover in their regular time: the windows when no call was admitted for a window, the bucket a second after a refusal, the breaker when the timeout has passed since the last failure.", "quantifier": "all capacities, windows, rates, thresholds and timeouts, all calls, all settings of the clock", "why_tests_cant": "tests use a fixed clock or one that runs forward; the monotonic clock of time.Now hides the difference until UnixNano drops it", "anchors": ["ratelimiter/slidingwindow.go:62-87", "ratelimiter/fixedwindow.go:66-104", "ratelimiter/tokenbucket.go:71-104", "circuitbreaker/circuitbreaker.go:75-119"]}
{"id": "C147", "title": "Token buckets on 32-bit machines", "statement": "On every machine word size and wherever a bucket is in memory, no call of Acquire panics, and the buckets decide as with unbounded numbers.", "quantifier": "word sizes 4 and 8, all base addresses that the language allows, all capacities and rates that fit an int, all clock readings, all interleavings of any number of goroutines", "why_tests_cant": "tests run on 64-bit machines, where int has 64 bits and every int64 field is aligned", "anchors": ["ratelimiter/tokenbucket.go:44-65", "ratelimiter/tokenbucket.go:85-104", "ratelimiter/tokenbucket.go:108-177"]}
{"id": "C148", "title": "Limiters, breaker and semaphores with parameters of zero or less", "statement": "With a capacity of zero or less no rate limiter admits a call, and with a number of permits of zero or less both semaphores are made without panic and give no permit. A rate of zero or less admits at most the capacity in all; a window of size zero or less does not limit; a breaker threshold of zero or less acts like 1.", "quantifier": "all parameters out of range, all clock readings, all interleavings", "why_tests_cant": "tests use sensible parameters only; the constructors check nothing", "anchors": ["ratelimiter/tokenbucket.go:34-104", "ratelimiter/tokenbucket.go:116-177", "ratelimiter/fixedwindow.go:49-104", "ratelimiter/slidingwindow.go:42-87", "circuitbreaker/circuitbreaker.go:58-119", "concurrent/sema.go:37-122"]}
{"id": "C149", "title": "Processors that read the store", "statement": "A ValueProcessor may read other keys of the store that calls it (to check a maximum against a minimum, say): RegisterKey, updates and reads of a goroutine that holds no lock of the store return.", "quantifier": "all load policies, all stores, all processors that read any keys any finite number of times, all answers of redis", "why_tests_cant": "tests use processors that look at the value only", "anchors": ["confstore/store.go:38-71", "confstore/store.go:138-168", "confstore/store.go:239-253", "confstore/loader.go:16-18", "confstore/loader.go:37-68", "confstore/persister.go:44-58"]}
{"id": "C150", "title": "What the limiters keep is bounded and goes away", "statement": "At a key of the redis limiter there are never more elements than the greatest capacity used with it, everything stored has an expiry, and two timeouts after the last use of a key redis keeps nothing at it. A sliding window never holds more records than its capacity.", "quantifier": "all histories of calls of any number of limiters, all keys (also when list keys and block keys coincide), all parameters and times; sliding window: all sequences of Acquire and UpdateConfig", "why_tests_cant": "tests do not wait for expiry and do not look at sizes", "anchors": ["ratelimiter/ttl_ratelimiter_redis.go:54-111", "ratelimiter/ttl_ratelimiter_redis.go:186-233", "ratelimiter/slidingwindow.go:42-117"]}
{"id": "C151", "title": "Jobs that do not come back", "statement": "A job that does not return does not hold up its task, the other jobs or the other tasks; what it holds is given back after its timeout or after Stop.", "quantifier": "all reachable states of a task, all jobs in it, all continuations; any number of such jobs", "why_tests_cant": "tests use jobs that return; that something never happens cannot be tested", "anchors": ["schedule/task.go:98-139", "schedule/fixed_delay_task.go:94-114", "schedule/fixed_rate_task.go:125-155"]}
{"id": "C152", "title": "A process loads its configuration in several calls", "statement": "conf.Load can be called for several structs, one after the other: each gets what the command line, the environment and its yaml file say, and a later call does not touch what an earlier one has loaded.", "quantifier": "all sequences of calls with any structs, command lines, environments and files, with any assignments of the program between the calls", "why_tests_cant": "flag.CommandLine and os.Args are global: tests load one struct per process", "anchors": ["conf/conf.go:30-64", "conf/flag.go:32-81", "conf/env.go:33-90"]}
{"id": "C153", "title": "The redis limiter when redis loses data", "statement": "Eviction of keys, a restart from an old snapshot or from nothing, and the failover of a server or a shard to a replica that lacks the last writes do not change what the TTL limiter guarantees: at most capacity requests pass in a window, a block lasts until its timeout is over, and only triggered blocks are reported.", "quantifier": "all histories of calls of any limiters with any number of losses at any moments, each setting any set of keys back to any earlier state", "why_tests_cant": "tests use one redis (or a miniredis) that never loses anything", "anchors": ["ratelimiter/ttl_ratelimiter_redis.go:54-124", "ratelimiter/ttl_ratelimiter_redis.go:186-233"]}
{"id": "C154", "title": "Configurations whose pointers share variables or point in a circle", "statement": "Load returns for every configuration, whatever its pointers point to, and every exported field that yaml does not make another variable of has the value of its own flag, else of its own environment variable, else what yaml stores, else its initial value, also if several pointers of the configuration point to the same variable.", "quantifier": "all types, all heaps of objects with any pointers between them (nil, shared, circular), all command lines, environments and yaml effects", "why_tests_cant": "tests use one tree of structs; a circle needs a proof that no recursion depth is enough", "anchors": ["conf/reflect.go:26-59", "conf/reflect.go:80-151", "conf/conf.go:30-64", "conf/env.go:33-90", "conf/flag.go:32-76"]}
{"id": "C155", "title": "The config store when redis loses data and processes restart", "statement": "A value that a successful BatchUpdate has saved is what every process reads that accepts it (with a load), as long as nobody changes the key: also when processes restart, and when redis is restored from a snapshot, fails over to a replica that lacks the last writes, or evicts the hash. Losses never make up values.", "quantifier": "all interleavings of calls of any number of processes, with any number of losses that set any fields back to any earlier state, and any restarts", "why_tests_cant": "tests use one process and one redis that keeps everything", "anchors": ["confstore/persister.go:32-83", "confstore/store.go:97-168", "confstore/store.go:224-265", "confstore/loader.go:37-68"]}
{"id": "C156", "title": "Anchors, aliases and merge keys in yaml files", "statement": "A yaml file with aliases and merge keys (<<) that is accepted gives the struct the values of the file with the aliases written out and the merged entries inserted as yaml defines it: a mapping's own entries count more than merged ones, wherever the key << is, and earlier mappings of a list count more. Decoding ends also for files that contain themselves.", "quantifier": "all files (trees with aliases, also circular ones), all structs and their values", "why_tests_cant": "tests have no file with anchors", "anchors": ["conf/yaml.go:29-38", "conf/conf.go:50-62"]}
{"id": "C157", "title": "Readers of events that send events to the same bus", "statement": "Goroutines that read events from receivers may send events to the same bus in response: as long as there are events to deliver or to send, some dispatcher or reader can go on, if the bus is open, has a dispatcher, and every receiver has a reader.", "quantifier": "all executions with any number of dispatchers, receivers, readers and other users of the bus, all buffer sizes, all ways of responding", "why_tests_cant": "a deadlock needs an event from elsewhere at the moment in which a reader responds", "anchors": ["event/bus.go:27-32", "event/bus.go:96-104", "event/bus.go:171-182"]}
{"id": "C158", "title": "The limiter on a redis cluster", "statement": "The callers of a limiter made with NewRedisTtlRateLimiterCluster get the results that they would get if redis was one server, whatever node of the cluster the client is connected to and also while and after slots are moved to other nodes.", "quantifier": "all assignments of slots to nodes, all clients, all histories of calls and of slots and keys that are moved", "why_tests_cant": "tests run against one redis server", "anchors": ["ratelimiter/ttl_ratelimiter_redis.go:126-150", "ratelimiter/ttl_ratelimiter_redis.go:162-186", "ratelimiter/ttl_ratelimiter_redis.go:188-233"]}
{"id": "C159", "title": "Events get through the bus", "statement": "In every infinite execution in which no dispatcher that can go on again and again is passed over for ever, and in which the Block receivers that stay registered are read, every event that is in the channel of the bus is taken by a dispatcher, after exactly the events that were before it, and the dispatcher offers it to every receiver that is registered when it begins, and then takes the next one. A sender finds room some time. After Close every dispatcher ends, and the lock becomes free.", "quantifier": "all infinite executions, all numbers of dispatchers, receivers and readers, all buffer sizes, all events", "why_tests_cant": "a test sees the beginning of an execution; that something happens some time in every execution cannot be observed", "anchors": ["event/bus.go:81-83", "event/bus.go:86-94", "event/bus.go:96-104", "event/bus.go:138-169", "event/bus.go:171-191"]}
{"id": "C160", "title": "Every Acquire returns some time", "statement": "In every infinite execution in which a Release follows whenever all permits are taken, and in which goroutines that are woken get the mutex, every Acquire of a semaphore returns some time.", "quantifier": "all infinite executions, all numbers of permits, goroutines and calls", "why_tests_cant": "a test sees the beginning of an execution", "anchors": ["concurrent/sema.go:59-81", "concurrent/sema.go:91-118"]}
{"id": "C161", "title": "A started task runs for ever, a stopped one ends", "statement": "In every infinite execution in which what stays possible is done some time and time goes on without bound: job n of a task that has been started and is not stopped starts and ends, for every n; every job that has been begun with is executed to its end; Start returns; and after Stop all goroutines of the task end.", "quantifier": "all infinite fair executions, both kinds of tasks, all intervals and timeouts, all times of Start and Stop", "why_tests_cant": "a test sees the beginning of an execution, and only the jobs in it", "anchors": ["schedule/task.go:98-153", "schedule/fixed_delay_task.go:73-120", "schedule/fixed_rate_task.go:78-160"]}
{"id": "C162", "title": "Every Acquire of an atomic token bucket returns", "statement": "In every infinite execution with any number of goroutines that call again and again, every call of AtomicTokenBucket.Acquire whose goroutine goes on returns.", "quantifier": "all infinite executions, all numbers of goroutines and calls, all capacities and rates of zero or more, all clocks that do not go back", "why_tests_cant": "a CAS that fails again and again needs an interleaving that a test does not meet", "anchors": ["ratelimiter/tokenbucket.go:120-136", "ratelimiter/tokenbucket.go:138-177"]}
{"id": "C163", "title": "Yaml files in the style of the documentation mean what they say", "statement": "A text whose lines are empty, comments, `key:` or `key: value`, nested by indentation, is read as exactly one document: the one whose entries it writes, whatever comments, empty lines, line ends and indentation it has; every configuration made of such keys and values can be written; and after Load a field for which there is neither flag nor environment variable holds the value that the text of the file has under its names, or its initial value.", "quantifier": "all texts of this form, all configurations, structs, arguments, environments", "why_tests_cant": "a test has a few files; quotes, comments and indentation can be combined in infinitely many ways", "anchors": ["conf/yaml.go:29-41", "conf/doc.go:53-62"]}
{"id": "C164", "title": "The circuit breaker closes again after an outage, opens in one, and never gives up", "statement": "In every infinite execution with any number of overlapping calls of Do, made for ever while time passes and tasks end: once the tasks succeed, the breaker closes some time and stays closed; once they fail, it opens some time, and from then on a call is refused exactly if the reset timeout has not passed since the last recorded failure; whatever the tasks do (panics included), again and again one is started; and every call returns.", "quantifier": "all infinite executions, all interleavings of any number of calls, all thresholds and timeouts, all clock readings", "why_tests_cant": "that something happens some time, whatever the interleaving, cannot be observed in a finite run", "anchors": ["circuitbreaker/circuitbreaker.go:75-119"]}
{"id": "C165", "title": "How old the values are that the config store returns", "statement": "When other processes set a key in redis: a read (any number of them at the same time) whose load does not fail returns a value that redis had at or after the time of the call, less the minimal interval of the load policy and the longest delay of a load; so a value that redis has kept for longer than this before the call is the one returned; and reads of one store do not go back to older values.", "quantifier": "all interleavings of any number of goroutines, NewLoadPolicy with all intervals and SimpleLoadPolicy, all delays of redis, all moments of changes, loads that fail", "why_tests_cant": "a test would have to time loads, changes and reads of several goroutines exactly", "anchors": ["confstore/loader.go:24-68", "confstore/persister.go:44-58", "confstore/store.go:224-253"]}
{"id": "C166", "title": "Callers that keep to the limit are never rejected", "statement": "If in no time of the length of the window there are more calls than the capacity, a sliding window, a fixed window and (for calls of each key) the redis limiter let all of them through; if in no time there are more calls than the capacity and the rate for each whole second of it, a token bucket admits all of them.", "quantifier": "all capacities, rates, windows, all sequences of calls with a clock that does not go back", "why_tests_cant": "a test tries some sequences of calls; here all conforming ones are meant, of any length", "anchors": ["ratelimiter/tokenbucket.go:71-104", "ratelimiter/tokenbucket.go:119-177", "ratelimiter/slidingwindow.go:62-87", "ratelimiter/fixedwindow.go:66-104", "ratelimiter/ttl_ratelimiter_redis.go:54-233"]}
{"id": "C167", "title": "A key that the redis limiter blocked gets through again", "statement": "After the timeout of a block the next request of the key passes; and a key that is called all the time is never shut out for longer than the timeout and the window.", "quantifier": "all capacities, windows, timeouts, all sequences of calls of any number of keys, all differences of the clocks up to a bound", "why_tests_cant": "a test waits for one block to end; here all histories are meant, with retries during the block and blocks that follow each other", "anchors": ["ratelimiter/ttl_ratelimiter_redis.go:54-111", "ratelimiter/ttl_ratelimiter.go:46-52"]}
{"id": "C168", "title": "The redis limiter when its parameters change at run time", "statement": "Whatever the parameters were before: a request passes only if, with it, not more requests than the capacity of that moment passed within the window of that moment; and a block begins only if that many passed.", "quantifier": "all sequences of calls of any number of keys, with parameters that change from call to call, limiter switched off in between, any difference between the clocks of the clients and of redis", "why_tests_cant": "a test changes the parameters once or twice; here all histories of parameters are meant, of any length", "anchors": ["ratelimiter/ttl_ratelimiter_redis.go:54-111", "ratelimiter/ttl_ratelimiter.go:61-71"]}
{"id": "C169", "title": "A higher limit never admits less", "statement": "If a limiter is configured with a higher capacity, a higher rate or a shorter window, and the same calls are made at the same times, then no fewer calls are admitted.", "quantifier": "all capacities, rates and windows, all sequences of calls at times that do not go back; for the fixed window's capacity all sequences of times", "why_tests_cant": "a test compares two settings on a few calls; here all pairs of settings and all sequences of calls are compared", "anchors": ["ratelimiter/tokenbucket.go:71-104", "ratelimiter/tokenbucket.go:130-177", "ratelimiter/slidingwindow.go:50-87", "ratelimiter/fixedwindow.go:66-104", "ratelimiter/ttl_ratelimiter_redis.go:54-111"]}
{"id": "C170", "title": "No limiter that keeps the same bound admits more", "statement": "A window limiter refuses no more than it must: for the same calls, no other choice of which calls to admit that keeps the limiter's own bound admits more calls in all. The sliding window: no more than the capacity in any closed time of the length of the window. The fixed window: no more than the capacity in each interval. The token bucket: no more than the capacity, and the rate for each whole second.", "quantifier": "all capacities and windows, all sequences of calls at times that do not go back, all other choices, also those that know the future", "why_tests_cant": "the claim is about all other limiters, also about those that know future calls; no test can try them all", "anchors": ["ratelimiter/slidingwindow.go:50-87", "ratelimiter/fixedwindow.go:66-104", "ratelimiter/tokenbucket.go:71-104"]}
{"id": "C171", "title": "Only differences of times matter", "statement": "If a limiter or a circuit breaker is created and called later, all times shifted by the same amount, it gives the same answers. For the redis limiter the clock of redis and the clocks of the clients may be shifted by different amounts.", "quantifier": "all shifts, all parameters, all sequences of calls at any times (also a clock that goes back), with changes of the configuration of the sliding window, with any number of keys, block keys, hash tags, parameters, failed requests and queries of the redis limiter; all executions of the circuit breaker with concurrent calls", "why_tests_cant": "tests run at the time at which they run, or at times that the test chose; a dependence on the epoch or on an offset between two machines shows only elsewhere", "anchors": ["ratelimiter/tokenbucket.go:71-104", "ratelimiter/tokenbucket.go:130-177", "ratelimiter/slidingwindow.go:50-117", "ratelimiter/fixedwindow.go:66-104", "ratelimiter/ttl_ratelimiter_redis.go:54-233", "circuitbreaker/circuitbreaker.go:58-119"]}
{"id": "C172", "title": "A call of the redis limiter uses one set of parameters", "statement": "Whatever the getters of TtlRateLimiterParams return and whenever they change, a call of ShouldBlock acts as with one set of parameters (capacity, window, timeout) that was in force at some instant of the call. With the fixed parameters these are the three values given to NewFixedTtlRateLimiterParams, also if limiters are used as parameters of limiters; if one value that is read is not positive, the request passes and redis is unchanged.", "quantifier": "all implementations of the parameters, that change at any instant between two reads, all states of redis, all keys, times and messages, any depth of nesting", "why_tests_cant": "the window between two getter calls is a few instructions; a test does not change the parameters just there", "anchors": ["ratelimiter/ttl_ratelimiter.go:36-101", "ratelimiter/ttl_ratelimiter_redis.go:132-160", "ratelimiter/ttl_ratelimiter_redis.go:186-257"]}
{"id": "C173", "title": "Circuit breakers used inside tasks and callbacks of circuit breakers", "statement": "Tasks, onError and onOpen may call Do again, of the same breaker or of others, to any depth. Every such call comes to an end; it is refused exactly when the results recorded by its breaker before demand it; it has exactly one of the courses refused/succeeded/failed/panicked with its callback. A breaker called as often as its threshold with tasks that all fail is open.", "quantifier": "all numbers of breakers, thresholds, timeouts, nestings of calls to any depth, outcomes, panics and clock readings", "why_tests_cant": "tests call Do once with a task that does nothing; nesting, several breakers and panics are not combined", "anchors": ["circuitbreaker/circuitbreaker.go:75-119"]}
{"id": "C174", "title": "Goroutines that hold several permits at a time", "statement": "Goroutines share a semaphore; each calls Acquire as often as it needs permits, then Release as often. If none needs more permits than the semaphore has, all of them get through, in every interleaving.", "quantifier": "all numbers of permits, all numbers of goroutines and needs, all interleavings, both semaphores", "why_tests_cant": "whether goroutines block each other depends on the interleaving; a test sees few of them", "anchors": ["concurrent/sema.go:22-122"]}
{"id": "C175", "title": "Several limiters asked one after the other", "statement": "A caller with several limits asks the limiters in turn and stops at the first that refuses. The requests that pass keep to every limit, each limiter answers as it would alone when asked exactly the requests that reach it, and a request that is refused does not count against any limit.", "quantifier": "all lists of token buckets, sliding windows and fixed windows, all sequences of requests, all clock readings", "why_tests_cant": "the answers depend on the history of every limiter and on the order in which they are asked", "anchors": ["ratelimiter/interface.go:22-28", "ratelimiter/tokenbucket.go:71-104", "ratelimiter/slidingwindow.go:62-87", "ratelimiter/fixedwindow.go:66-104"]}
{"id": "C176", "title": "Calls that are refused leave no trace", "statement": "If some of the calls that a limiter or a circuit breaker refused had not been made, all other calls would have got the same answers: retrying does not make things worse.", "quantifier": "all parameters, all sequences of calls and clock readings, all choices of refused calls to leave out", "why_tests_cant": "compares two long histories for every choice of calls that are left out", "anchors": ["ratelimiter/tokenbucket.go:71-177", "ratelimiter/slidingwindow.go:62-87", "ratelimiter/fixedwindow.go:66-104", "ratelimiter/ttl_ratelimiter_redis.go:54-233", "circuitbreaker/circuitbreaker.go:75-119"]}
{"id": "C177", "title": "A more tolerant circuit breaker refuses no more", "statement": "Of two circuit breakers that get the same calls with the same tasks, the one with the higher failure threshold and the shorter reset timeout refuses no call that the other lets run, and refuses at most as many.", "quantifier": "all thresholds and timeouts, all sequences of calls and task results; concurrent calls up to the first refusal", "why_tests_cant": "compares two breakers over whole histories; the tests never run two breakers side by side", "anchors": ["circuitbreaker/circuitbreaker.go:46-134"]}
{"id": "C178", "title": "The keys of a config store are independent", "statement": "What a config store holds for a key, in memory and in redis, and all that its calls answer about this key depend only on the calls about this key (with batches and loads cut down to it), not on what is done with other keys, whatever commands of redis fail and whatever other processes write.", "quantifier": "all keys, processors and values, all sequences of calls of all kinds, all failures of redis, all writes of other processes", "why_tests_cant": "every key, every order of calls and every mix of failures would have to be tried", "anchors": ["confstore/store.go:38-265", "confstore/persister.go:43-83", "confstore/loader.go:24-68"]}
{"id": "C179", "title": "A caller that keeps trying gets through a limiter", "statement": "Several callers share a limiter. A caller that tries again and again, for ever, gets through some time, whatever the other callers do.", "quantifier": "all capacities, windows and rates, all infinite sequences of calls with a clock that does not go back", "why_tests_cant": "about infinite sequences of calls of several callers; a test sees a finite part of a few", "anchors": ["ratelimiter/interface.go:22-24", "ratelimiter/tokenbucket.go:71-104", "ratelimiter/slidingwindow.go:62-87", "ratelimiter/fixedwindow.go:66-104"]}
{"id": "C180", "title": "Somebody always gets through a limiter", "statement": "However the callers share a limiter, calls are let through again and again: if there are calls for ever, any number of calls is let through sooner or later. A token bucket of rate 0 is the exception: it lets its capacity through and then nothing.", "quantifier": "all capacities, positive windows and rates (sliding window: all capacities and windows), all infinite sequences of calls with a clock that does not go back and goes on for ever", "why_tests_cant": "about infinite sequences of calls; a test sees a finite part of a few", "anchors": ["ratelimiter/interface.go:22-24", "ratelimiter/tokenbucket.go:71-177", "ratelimiter/slidingwindow.go:62-87", "ratelimiter/fixedwindow.go:66-104"]}
