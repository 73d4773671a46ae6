# Formal model of chanjarster/gears in Lean 4 — design

Everything is under `/verif/lean/Verif/`.  For each component there is a directory with

* `Model.lean`  – the code, function by function, each definition citing file and lines of `/repo`;
* `Lemmas.lean` and other files – invariants and helper lemmas;
* `Props.lean`  – the property theorems (names listed in `MANIFEST.json`), each followed by an `example`
  showing that a concrete, non-trivial case meets its hypotheses.  What a theorem says is written with small
  specifications beside it (observable logs, counting functions, declarative splitters, naive reference
  implementations) which do not call the functions of the model they are about.

## Modelling conventions

* Go `int`/`int64` are `Int` (unbounded) unless the property is about wrap-around; `/` on Go integers is
  `Int.tdiv` (truncation toward zero).  Where the code can overflow, a separate theorem gives the range in
  which the 64-bit computation and the model coincide, or the trusted base says so.
* A method that mutates its receiver is a function returning the new state; error returns are values
  (`Option`/`Except`/sum), panics are an explicit outcome.
* A clock (`nowFn`, `time.Now`) is an input of the step that reads it.
* Code that runs entirely under one mutex is one atomic step.  (For the rate limiters and the circuit breaker this is
  itself proved, from the single reads and writes of fields: C139, `Common/Atomic`; for the configuration store: C140; for tasks: C141; for the bus: C142; for the task manager: C143.)  Code that takes several locks, or uses
  atomics/channels, is split into one step per critical section / atomic operation / channel operation, and the
  model is a transition system `step : State → Action → Option State` (`none` = not enabled) quantified over
  *every* finite list of actions, i.e. every schedule of every number of goroutines.
* Go map iteration order and `select` choice are nondeterministic: the action carries the choice.
* External libraries (redis server, yaml.v3, flag, x509, base64, url) are either modelled concretely (stated
  in the file) or are parameters with no assumption, or with the assumption written in the theorem.
* A property which the code violates is kept in full in `properties.jsonl`; we prove its negation with a concrete
  witness (`..._violated`) and the strongest true part as `..._partial`.

## Plan per property

| id | modelled as | proof |
|---|---|---|
| C01–C04 | `TokenBucket`: state (capacity,tokens,rate,last); history = list of clock readings | induction with invariant `tokens ≤ cap`, `admitted + tokens ≤ cap + r·⌊(last−t0)/s⌋`; window lemma for C02 |
| C05 | atomic bucket run without interleaving vs sync bucket | state equality step by step |
| C06–C07 | atomic bucket as transition system, per-thread program counters, one action per atomic load/CAS/add | inductive invariant over schedules; C07 refuted by schedules for every number n of goroutines (n times the issued tokens), this worst case shown to be the bound; conservation law |
| C08–C10 | `SlidingWindow`: list of timestamps, ops Acquire(now)/UpdateConfig | chain invariant a_k − a_{k−c} > W, pigeonhole on residues; refinement to full request log |
| C11–C14 | `FixedWindow` with exact ceiling; `Float53`: IEEE-754 binary64 rounding of quotients for C14 | invariant on (until,count); arithmetic of round-to-nearest-even |
| C15–C22 | `Redis`: typed key/value store with ms expiry; both Lua scripts; limiter wrapper incl. key construction | invariants over op histories; C20 cluster refuted; string lemmas for C19, C22; `Exact`: C19 as an iff (which API keys influence each other), C20 cluster for all histories |
| C23–C27 | breaker: sequential `do_` and interleaved begin/finish transition system | history invariant: failures = length of trailing failure run |
| C28–C32 | Go channel model with wait queue, cond-var model; both semaphores as transition systems | invariants, simulation between the two |
| C33–C40 | bus: channel buffers, RW lock, dispatcher program counter, registrations with identity | ghost history per receiver, sublist/prefix invariants |
| C41–C49 | task: consumer/provider/timers/jobs as transition system with clock; manager as map | invariants over schedules; C44, C49 refuted by witness |
| C50–C52 | byte-list functions `flagStyle`/`envStyle` | list induction, word-splitting spec |
| C53–C56 | Go types/values as inductive trees with named type environment for recursion; sources as parameters | structural induction; non-termination by unbounded fuel argument |
| C57–C66 | store with association maps; persister parameter; interleaved model for C66 | refinement to key→value spec; C60, C66 refuted by witness |
| C67–C68 | decimal parser, regex matcher for the one pattern | list induction |
| C69–C75 | printf as string concatenation, option maps, base64, URL escaping | non-interference, round-trip |
| C76–C77, C86–C87 | substring search; `encoding/pem` of Go 1.17 and base64 concretely, X.509 parsers as parameters | case analysis, round trip |
| C78–C80, C88, C91 | tracer/span as event log; `Context.Next` of fasthttp-routing concretely | case analysis, list induction, non-interference |
| C81–C82, C89–C90 | `conf.Load` end to end: allocation, visiting, naming, flags, environment, yaml | composition of C50–C56 |
| C83 | store reads | composition of C57–C58 |
| C84–C85 | `QueryEscape`/`QueryUnescape`, limits of `sql.DB` | round trip, case analysis |
| C92 | bus transition system | stuck states are invariant; a measure bounds the dispatchers' steps |
| C93 | store calls as programs over three `RWMutex`es | generic lock-order theorem (`Common/Locks`), bound on steps; refuted for a panic while kvLock is held |
| C94 | interleaved loads and resets | invariant over schedules; refuted by witness |
| C95–C96 | `time.ParseDuration` and `Duration.String` of Go 1.17 concretely | grammar of terms, error bound of the float64 product, round trip |
| C97 | `FormatDSN`/`ParseDSN` of go-sql-driver/mysql v1.6.0 concretely | round trip item by item; invariants of what `ParseDSN` can return for the refutations |
| C98 | token bucket and sliding window with every sum, difference and product reduced to 64 bits | invariant with wrapped tokens ≤ exact tokens; equality of runs while nothing overflows; refuted for huge rates |
| C99 | reporter and tracer from a configuration; dialling is an input | places of `::` in the service name; refuted for nil and for names with more colons |
| C100 | functions end by return, panic (possibly nil) or `Goexit` | case analysis; refuted for nil panics |
| C101 | lexer and automaton of encoding/json | both are sound and complete for the grammar; refuted for `null` |
| C102 | encoder with any order of iteration | the text of a value stands for what the value becomes; refuted for integers, nil slices, other bytes, deep nesting |
| C103 | `strconv.ParseInt`, `ParseUint`, `ParseBool` with 64-bit arithmetic | literals = digits with underscores between them, value without overflow |
| C104 | the encoder of C102 | the text is a sequence of characters, none of them excluded; induction on values |
| C105 | the texts of the scripts, with lexer, parser, interpreter | the parse is computed by the kernel; simulation of the interpreter by the model's scripts along an abstraction of stored strings; Hoare-like rules for the absence of panics |
| C106 | `LoadScript`, script caches of several servers, SHA-1 | invariant relating caches and variables to the history; calls without script count as calls while redis is down |
| C110 | bus transition system | counts of every set of events; panics by induction on the actions; a measure of the dispatchers' receives |
| C111 | store and load policy | the loaded state is a fixed point of further loads; induction on the keys of a batch |
| C112 | `BuildUrl` of go-ora v2.4.18 and the reading of the URL concretely | round trip of path escaping and of the items of the query |
| C113 | `net/url.ParseRequestURI` concretely (without `RawPath`), the two processors | parser = declarative grammar, function by function |
| C114 | the constructors with `strings.TrimSpace` on UTF-8 (its left half decides) | case analysis; trimming = text of white space runes |
| C115 | outcomes of client creation and ping are inputs | case analysis |
| C107–C109 | yaml.v3's decoder on trees of nodes, `resolve`, `getStructInfo` | effect of a file on a location by recursion on the location; paths of fields are prefix-free, keys different; acceptance = inductive `Fits`; C89 and C103 |
| C116 | `TokenBucket/Throughput`: histories cut at rejected calls | induction over the calls between two rejections; then strong induction over rejections a second apart; sharpness: rounds of rejections and one issue (Conform/Saturated.lean) |
| C117 | `Conf/ScalarProps`: grammars of words, integers, floats and timestamps against `resolve` | each branch of `resolve` shown to accept exactly one grammar; then case analysis over the kinds of fields |
| C118 | AtomicTokenBucket.Acquire, one step per atomic operation | potential that every operation decreases: a failed CAS of the counter is paid by who changed it, a roll-back by the commit before it, a commit by a second of the clock; single calls: constructed schedules |
| C119 | `strconv.ParseFloat` of Go 1.17, shortest digits of `FormatFloat`, `floatEncoder` of encoding/json | rounding: `nearest` shown to be the nearest of all numbers with ties to even, monotone; texts: loops against a grammar; shortest: by monotonicity every number of n digits is beyond one of two candidates; one text only: between two that are as near there would be a nearer one; 17 digits from the size of the gaps; round trip through the grammar |
| C120, C109 for float64 | `Strconv/YamlFloat`, `Strconv/YamlInt`: the numbers of yaml.v3 as float64, conversion of floats to integers | removing underscores does not change the number; an octal text of eight or more differs from the decimal one by an eighth, which is more than a gap; `int64(f)` against floor and ceiling in ℚ; what the language leaves open is a parameter (`wild`) |
| C121 | `AtomicBucket/Int64`: every sum, difference and product of the lock-free bucket reduced to 64 bits | no counter falls below minus the number of steps; equality of runs while capacity + rate · seconds fits into 63 bits; refuted for huge rates |
| C122 | `Confs/Pq`, `PqLemmas`, `PqUrl`, `PqProps`: `ParseURL`, `parseOpts` and `NewConnector` of lib/pq with the environment as a parameter, `net.SplitHostPort`, `[]rune` conversions | exact set of values that net/url gives back (iff, with C113's grammar); quoting and scanning are inverse rune by rune; refuted for empty values, IPv6 hosts, hidden options |
| C123 | `CircuitBreaker/Outage`: the transition system of C22-C26 with a clock that does not go back | the tasks started within one timeout are all in progress at one moment; windows one after the other; refuted for tasks that panic |
| C124 | `Rsa/Asn1`, `Asn1Lemmas`, `KeyProps`: `ParsePKCS1PrivateKey`, `ParsePKIXPublicKey`, `MarshalPKIXPublicKey` with the DER readers and writers of encoding/asn1 and cryptobyte and `PrivateKey.Validate` | writing and reading of lengths, integers in two's complement and elements are inverse; exact for valid and invalid keys |
| C125 | `Rsa/Works`: the keys of C124 | Fermat's little theorem for each prime, product of different primes; refuted for a prime used twice |
| C126 | `Confstore/Panics`, `PanicProps`: the store with processors that may panic, the processors of procs.go concretely (`Rsa/Curve` for keys of elliptic curves) | invariant over all histories, exact condition for a panic (iff); refuted with calls of the store only |
| C127 | `Schedule/Clock`: the tasks of `Schedule/Model` with the due time of the ticker; prompt executions: time goes on only when no goroutine can take a step | refinement to `Schedule/Model`, invariants over all executions and over prompt executions |
| C128 | `TtlRedis/Doubles`: integers rounded to 53 bits, `%.17g`, redis' check of expiry times | the arithmetic satisfies the laws C105 needs; invariant: no string is ever stored when the expiry time is refused; induction over the calls of a burst for the rest |
| C129 | `Confstore/Cluster`: stores of several processes on one hash; batches and loads as calls in progress, step by step | invariant: a value in some store is accompanied by an acceptable value in redis or by a batch about to write one; refuted for ResetKey and Update, for all later histories |
| C130 | `Schedule/JobLog`: one `runJob` with its two goroutines; return, `close(fin)` and reading `Err()` are separate steps | invariant over all interleavings; refuted by a job that returns at once |
| C131 | `TaskManager/Real`: the manager with the full task models of `Schedule`; a call holds the lock and goes step by step | refinement of the one-step manager of C48, projection onto single tasks, measure for the calls |
| C132 | `Bus/Writers`: the bus with a call in `Lock` and dispatchers parked in `RLock` | invariant; every execution is one of the bus without writer preference; measure `work` of C92 |
| C133 | `FixedWindow/Int64`, `CircuitBreaker/Int64`: every sum, difference and product reduced to 64 bits, out-of-range float conversions arbitrary | error bound of the rounded quotient, invariant on the end of the interval; equality of runs; refuted just beyond the range |
| C134 | `Conf/Package`: the eight structs field by field, and the tables of their comments | names split at the dot of the path; composed with C89 and C81 |
| C135 | `Sema/Model` | the calls served followed by the queue are 0, 1, 2, …; induction over the rest of the schedule for the wait; family of schedules for the starvation |
| C136 | `Skywalking/Trace`: entry and exit spans, contexts and the header sw8 of go2sky | header round trip (base64, decimal numbers, splitting); induction along the services; the hook refuted |
| C137 | `Common/Calls`: calls that read the clock and later get the lock; `SlidingWindow/Late`, `FixedWindow/Late` | invariants over the log of decided calls, tagged with the interval in which they are counted; bounds in the delay; witnesses for every capacity and delay |
| C138 | `TtlRedis/Skew`: calls with a client second within a band around redis' time | invariant relating the list of the key to the passed calls, and spacing of the c-th next passed call; trigger by the c stored times; witness for long windows |
| C139 | `Common/Atomic`: programs of loads, stores, clock readings, locks and unlocks, under any schedule; the bodies of the methods line by line | lock invariant (guarded accesses do not race); two-phase locking gives an order of effects that is sequential; refinement of the bodies to the one-step models |
| C140 | `Confstore/Instr`: the sections of store.go line by line as programs of loads, stores and locks; `Methods`: the methods as sequences of sections | two-phase locking of the sections (C139's theorem); invariant that a write follows a lookup of its processor; simulation of the order of effects by the steps of C66 |
| C141 | `Schedule/Instr`: the methods of task.go, the consumer and the provider line by line | simulation of every instruction by none, one or two steps of `Schedule/Model`; lock invariant; permutation of results |
| C142 | `Bus/Instr`: callers and dispatchers line by line | simulation: every instruction is none or one step of `Bus/Model`, an iteration of the loop of Close is a Close of the receiver; lock invariant |
| C143 | `TaskManager/Instr`: the methods of the manager line by line, over the tasks of `Schedule/Instr` | simulation of every instruction by none or one step of `TaskManager/Model`; lock invariant; measure for calls that end |
| C144 | `TtlRedis/Retry`: sending, executing, delivering and giving up are steps of their own; the loop of go-redis with `MaxRetries` | refinement to the executed commands, C138 for these; counting of transmissions per call; two witnesses |
| C145 | `Confstore/Late`: sending, executing, answering and giving up are steps of their own | invariant about who has changed the key since; witnesses |
| C146 | a reading is the real time plus the setting of the clock at that moment (`Common/Wall`) | reduction to readings; counting issues that take tokens away; witnesses for every capacity, window and amount |
| C147 | struct layout of the Go compiler, panics of 64-bit atomic operations on addresses that are no multiple of 8, 32-bit int with conversion from int64 | offsets for every base; invariants over all interleavings; arithmetic modulo 2^32 |
| C148 | the models of C01-C14, C23-C32 with parameters of zero or less; division by zero in fixedwindow.go:102 gives some int64, which is multiplied by zero | inductions and invariants; the float64 quotient with a negative divisor; simulation between breakers of different thresholds |
| C149 | methods of processors as trees of nested GetValueString calls; the locks of one goroutine; evaluation with a limit on the nesting | monotonicity in the limit; calls keep locks and processors; inductions on the limit for calls that never return |
| C150 | `TtlRedis/Model` and the scripts as texts (C105, C128); `SlidingWindow/Model` | invariant on the entry of one key, for calls that use it up to a time; transferred to the texts with C105; the run of the text for a huge timeout |
| C151 | `Schedule/Model`, and processes (`Proc`) of several tasks with panics | invariants of the states in which the consumer waits; simulation that deletes the steps of one job; construction of n hanging jobs by induction |
| C152 | `loadNext`: `load` in a process with the flags and variables of earlier calls | simulation: a later call is a single call in a world with more flags (so C55, C81, C82 apply); command lines accepted with fewer flags mean the same with more |
| C153 | `runL`: histories with events that set keys back to an earlier state | the list of an earlier state is a fresh start for the invariant of C17; blocks: all states since the trigger have the key; causes: all states of the history are justified |
| C154 | `hInit`, `hvisit`: initPtrValue and the visits on objects with addresses; `loadV`: several fields per variable | typing of the heap is invariant and types below are not written to; termination by accessibility of the type and back; the last setting of a variable along the arguments |
| C155 | `lStep`: the processes of C129 with losses and restarts, and the past of the hash | all states since the value was saved have it; sources as an invariant of hash, past, stores and calls in progress; C64 for the reads |
| C156 | `xdec`: yaml.v3's `unmarshal`, `alias`, `mapping`, `mappingStruct` and `merge` on trees with aliases | a file as a list of one-entry files in the order of decoding; writes to locations apart commute; recursors of the mutual relations; pigeonhole on the aliases being decoded |
| C157 | `hStep`: the bus model with the events every reading goroutine has yet to send | case analysis of a state in which nobody can go on; for ever as an invariant |
| C158 | `step`: nodes with databases, owners of slots, keys that go over one by one; a node executes a command only if it has the slot | refinement to one server (invariant about where the keys are) |
| C159 | `IsRun` (infinite executions of `Bus.step`), `FairD`, `FairR`, `Served` | strong fairness and a decreasing number of receivers to visit; induction on the position in the channel |
| C160 | `IsRun` (infinite executions of `Chan.step`, `Lock.step`), `Returns`, `WeakFair`, `StrongFair` | C135_wait along the execution; count that can only fall; an explicit infinite execution |
| C161 | `IsRun` (infinite executions of `Schedule.step`), `Just` (weak fairness), unbounded clock | ensures rules along the execution; invariant that a FixedDelayTask that waits has a timer under way; explicit infinite executions of a running and a stopped task |
| C162 | `IsRun` (infinite executions of `AtomicBucket.step`), `GoesOn` | sums over goroutines that settle, one after the other: timestamps, issues and roll-backs, tokens, own operations; an explicit infinite execution |
| C163 | `Text.parse` (lines, quotes, comments, indentation) | `Says`, a grammar for texts, independent of the reader; both inclusions by induction on lines and on nesting; composition with C107 |
| C164 | `IsRun` (infinite executions of `CircuitBreaker.step`), `goes` (weak fairness, tasks end) | positions of calls that are left and not come to again are empty some time; contradiction with a breaker that stays as it is; explicit infinite executions |
| C165 | `Fresh.step`: reads as steps (lock, decision, HGETALL, use of the reply, lastLoadTs, read), with time | invariant: the value in the store is at most the delay older than lastLoadTs; only the owner of the lock is between lines 38 and 56 |
| C166 | the models of the limiters | sliding and fixed window: from C09 and C13; token bucket: invariants over the calls since the last issue (per second), and since the bucket was full last (bursts); redis limiter: from C138 and C16; for the sharpness of the half, calls every two seconds less a nanosecond (Conform/Sharp.lean) |
| C167 | the model of the scripts and of redis in TtlRedis | invariant: the expiry of the list is two timeouts after a call that passed; with C138 (a block begins only on a full window) and the cause of each block (C16) |
| C168 | the model of the scripts and of redis in TtlRedis | invariant over the calls: the list is the end of the requests that passed, and what is no longer in it is older than the window, or held off by the block, or the capacity stays below the length of the list |
| C169 | the models of the token buckets, windows and of the redis limiter; no new model | two runs in lockstep (simulation): buckets issue at the same times and the higher one never has fewer tokens; the sliding windows: what only the higher one admits is never more than the difference of the capacities within a window; shorter window from C170 |
| C170 | the models of the windows and of the token bucket; no new model | exchange argument: at the last refused call the limiter has used up its bound in a time up to now, where the other can have no more; before that time by induction |
| C171 | the models of the limiters and of the circuit breaker; no new model | simulation: the shifted state (timestamps, records, list elements, expiry times) is the state of the shifted run, one step at a time; fixed window by induction with C13 |
| C172 | the constructors and getters of the parameters and of the limiter, ShouldBlock2Context with its six reads one after another, the short circuit of isParamsNotSet | case analysis of the reads, induction over the depth; the violations by execution of the model |
| C173 | Do with tasks and callbacks that are themselves lists of calls of any breakers; panics unwind all calls around them | mutual induction over the nesting: each breaker runs through an execution of the concurrent model; the opening by counting |
| C174 | goroutines that take their permits one by one and return them, on the transition systems of both semaphores | invariant: permits in use are held by goroutines or got by their blocked calls; a decreasing bound on the steps; for too few permits a schedule that fills the semaphore and blocks everybody |
| C175 | a list of limiters of the three models asked in turn, each with its own clock reading | induction over requests and over the list: each limiter's history is one of the limiter alone; the bounds C01, C08 and C12 then carry over |
| C176 | the sequential models of the four limiters, the redis limiter and the circuit breaker; histories without some refused calls | a refused call leaves the state as it is (for the token bucket by an invariant of buckets whose clock has not gone back); induction over the history |
| C177 | two breakers of Model.lean on the same calls | simulation up to the first refusal for concurrent calls; for an outage, induction with the invariant that the tolerant breaker has recorded more failures, or as many and not later |
| C178 | sequences of calls of the functions of Model.lean, with writes of other processes; their restriction to a key | relation of two stores that agree about the key, kept by every call against its restriction; induction over the calls |
| C179 | infinite sequences of calls of two callers on the models of the limiters | an infinite schedule in rounds, with the state of the limiter at every point of a round; for the positive part, refused calls leave the state (C176) while the clock goes on |
| C180 | infinite sequences of calls on the models of the limiters | from C179: after any call, look at all later callers as one; for rate 0, the sum of the calls let through and of the tokens left is constant; atomic bucket: from C05 (Conform/SharpAtomic.lean) |

## What is modelled, per component

| directory | code | modelled | not modelled / assumed |
|---|---|---|---|
| `TokenBucket` | ratelimiter/tokenbucket.go (sync) | Acquire, clock readings; 64-bit arithmetic in `Int64.lean` | |
| `AtomicBucket` | ratelimiter/tokenbucket.go (atomic) | each atomic operation is one step, any number of goroutines; `AtomicBucket/Bound`: the exact worst case of over-admission; `AtomicBucket/Live`: infinite executions | weak memory (Go atomics are sequentially consistent) |
| `SlidingWindow`, `FixedWindow` | ratelimiter/slidingwindow.go, fixedwindow.go | Acquire, UpdateConfig; the float64 expression of the fixed window bit for bit (`Common/Float64`); `FixedWindow/Start`: any first clock reading; `Late`: clock reading and decision as two steps of concurrent calls | |
| `TtlRedis` | ratelimiter/ttl_ratelimiter*.go | limiter, both Lua scripts (as functions and as texts with an interpreter), script loading with SHA-1, key building, typed redis store with expiry, cluster slots (CRC16), nodes of a cluster and moving slots (`TtlRedis/Cluster`), loss of data (`TtlRedis/Loss`) | nodes that disagree about the owner of a slot |
| `CircuitBreaker` | circuitbreaker/ | Do sequentially and interleaved, callbacks, panics; infinite executions in `CircuitBreaker/Live` | |
| `Sema` | concurrent/sema.go | channels with wait queue, condition variable; infinite executions with fairness hypotheses in `Sema/Live` | that the Go scheduler and mutex meet the fairness hypotheses |
| `Bus` | event/bus.go | dispatch, receivers, Close, Drain, Collect; writer preference of `RWMutex` in `Bus/Writers`; infinite executions with fairness hypotheses in `Bus/Live` | that the Go scheduler meets the fairness hypotheses |
| `Schedule`, `TaskManager` | schedule/ | both task kinds, timers, the periods of tickers (`Clock`), manager; infinite fair executions in `Schedule/Live` | the body of a job is a begin and an end |
| `Conf` | conf/ | naming, reflection walk, Load, package `flag` | yaml decoding of node trees (`Yaml`: structs, tags, scalars as in yaml.v3); anchors and merge keys (`Merge`); the text of yaml files in the style of the documentation (`Text`: lines `key: value`, quotes, comments, indentation); the text of other yaml files, explicit tags, and the texts of floats are parameters or left out |
| `Conform` | ratelimiter/*.go | callers that keep to the limit; uses the models of the limiters | |
| `Confstore` | confstore/{store,loader,persister}.go | all operations, load policy; interleaving of critical sections; lost, delayed and repeated commands (`Late`); loads in time (`Fresh`) | |
| `Procs` | confstore/procs.go | `strconv.Atoi`, the regular expression, `net/url.ParseRequestURI` (Procs/Url) | key parsers are parameters, given by `Confstore/Panics` |
| `Duration` | package time as used by confstore/procs.go, conf/, confs/ | `ParseDuration`, `Duration.String` | |
| `Confs` | confs/ | printing, options, DSNs, pool limits, TLS choice, pprof authorization | drivers beyond their documented options; IPv6 hosts in the postgres DSN |
| `Rsa` | util/rsa | PEM normalisation, key readers, DER of RSA keys, points of elliptic curves (`Curve`) | X.509 certificates are a parameter |
| `Testutil` | testutil/panic.go | panic, recover, Goexit | `reflect.DeepEqual` is a parameter |
| `Dto` | dto/m.go | encoding/json for maps, slices, strings, integers, floats | float64 texts and their parser are parameters, given by `Strconv`; structs, pointers, byte slices, Marshalers |
| `Strconv` | conf/flag.go, conf/env.go, dto/m.go | strconv.ParseFloat and the texts of float64 in JSON | the fast paths of strconv are replaced by exact arithmetic |
| `Skywalking` | skywalking/ | middleware, redis hook, client helper, reporter and tracer factories; in `Trace` the spans, contexts and headers of go2sky | correlation data, segments that have ended, reporting |

Shared: `Common/Exec` (executions of transition systems), `Common/Bytes` (byte strings, decimal and hex digits,
split/join), `Common/Float64` (round to nearest even), `Common/Utf8`, `Common/History`, `Common/Locks` (`RWMutex` with writer preference, lock order).

## Where the code does not do what the property says

The theorems `Cxx_…_violated` give witnesses; the notes in `MANIFEST.json` say what goes wrong and what is proved
instead (`Cxx_…_partial`).  In short:
C07 atomic bucket over-admits, by a factor of the number of goroutines; C11–C14 float rounding of the first interval end; C18 TTL 0 at the end of a block;
C19 colliding redis keys; C20 `IsBlocked` ignores the hash tag; C22 braces in keys; C26 a late success closes an
open breaker; C32 barging; C38 closing a receiver whose name was reused; C40 nils after close; C44 a job may
start after Stop; C49 a panic of `MustStart` leaves the name registered; C52 underscores; C53 pointers to
pointers; C55/C89 yaml replaces a variable; C56 self-referential types; C59/C61/C63 the empty or an unknown key;
C60 inverted condition, accepted updates are not persisted; C66 deregistration between two critical sections;
C68 regular expression not anchored; C70 `MaxOpenConns` not printed; C73 certificate pool dropped; C74 pool
settings in the wrong fields; C75 no escaping; C76 second mark; C77 panic for a public key that is not RSA;
C78/C88 the middleware swallows errors; C79 empty error texts; C80 nil span; C92 Close waits for a reader; C93 a panic in `Convert` leaves a lock held; C94 a load undoes a reset; C96 the least
duration; C97 users with a colon, databases with a slash; C112 users with a colon, services with a slash at an end; C98 rates near 2^62 per second make the number of tokens negative; C99 `NewTracer(nil)` panics, namespaces with `::`; C100 `panic(nil)`;
C101 `null` gives a nil map; C102 integers come back as floats, nil slices as nil, deep nesting cannot be read;
C106 scripts are never loaded again; C107 embedded structs without `inline`; C108 two fields with one yaml key; C109 the float text 010; C116 fractions of seconds are lost when tokens are issued; C120 `1.5` for an integer field is stored as 1, and numbers out of range may be accepted; C121 rates near 2^62 per second make the counters of AtomicTokenBucket wrap around; C122 lib/pq takes an empty password from the environment and misreads IPv6 hosts; C123 a panicking task is not recorded, so the next one is let through at once; C125 a key with the modulus 3·3 is accepted; C126 a public key of another kind in redis makes every read panic; C128 a timeout of 10^16 seconds or more makes the redis limiter pass everything; C129 ResetKey and Update in one process never reach the others; C130 a job that finished normally may be logged as canceled by stop signal; C135 LockSemaphore serves in any order, and a waiting call can starve; C136 a redis hook without `WithAddr`, or with a nil tracer, makes every command panic; C137 late calls of a fixed window are counted in a later interval, so an interval may admit more than its capacity; a sliding window refuses too early when calls overtake each other; C138 the list of a key expires after twice the timeout, so a window longer than that is not enforced; C139 LoadScript assigns the script digests without a lock while limiters read them; C144 a call whose command is sent again counts again, so a call can block itself; a trigger whose reply is lost is never reported; C145 a delayed command overwrites the value of a later, answered call; C146 setting the clock back by B makes them refuse for about B longer; setting it ahead over-admits; C147 on 32-bit machines the atomic bucket panics, and a long idle sync bucket refuses for days; C148 a sliding window of capacity 0 admits everything; ChanSemaphore(0) lets Acquire through on any Release; C149 a processor that reads the store makes registration hang, and reads hang or recurse without end; C150 with a timeout of 10^16 seconds or more the list of a key stays in redis for ever; C151 a job that does not return stops its FixedDelayTask for good and is held for ever, a job that panics stops all tasks; C152 a flag of a struct that is loaded later makes the first Load exit, and a later Load sees neither command line nor yaml file; C153 a failover to a replica without the last writes drops fresh blocks and admits up to capacity requests again; C154 circular pointers make Load recurse without end, and fields that share a variable all get the flag given last; C155 after a failover that loses a saved value, running processes keep it or fall back to an older one, and restarted ones read the default; C156 merge keys in yaml files: a value merged after a key wins over the key's own value, mappings are joined instead of replaced, and null does not override; C157 a reader of a Block receiver that sends to the same bus can stop it for ever; C158 a limiter for a cluster is off if its client is connected to a node that does not own the slot of the hash tag, and after the slot was moved; C160 one Acquire of a LockSemaphore can wait for ever although permits are given back again and again; C162 one Acquire of an AtomicTokenBucket can fail its CAS for ever while others issue and take tokens; C165 with `SimpleLoadPolicy` a read can return an older value than the read before; C166 token buckets reject callers that keep to capacity and rate (fractions of a second are lost); the fixed window rejects a call that is a whole window after the only one before (rounding), the redis limiter one that is up to a second later than the window (times are cut to seconds); C167 with a window that is not shorter than the timeout the first request after a block begins the next block; C168 capacity lowered and raised again: more requests than the higher capacity pass within the window; C169 a shorter fixed window, or a higher capacity of the redis limiter, may admit less; C170 token buckets lose fractions of a second, the fixed window's first interval is not exact; C171 the fixed window's intervals are fixed in absolute time, and the first one is not computed exactly, and a breaker with threshold 0 compares the clock with 0; C172 capacity and window are read one after another, a change in between gives a set that was never configured; C173 a nested success sets the count back before the failure of the task around it is counted; C174 goroutines that need several permits block each other for ever unless there are more than the sum of (need - 1); C175 a request refused by a later limiter is counted by those asked before it, so retries can block everything for a whole window; C176 a refused call of the token bucket has an effect when the clock goes back, and the first refused call of the redis limiter blocks the key; C177 a breaker with a higher threshold or a shorter timeout can refuse more calls, because the tasks it starts may fail and keep it open; C178 with a load policy, reading another key can make the next read return an old value; C179 a caller can be refused for ever while others get through; the limiters have no queue.

## Trusted base

* Lean 4.33.0 kernel; every theorem listed in `MANIFEST.json` depends at most on the axioms `propext`,
  `Classical.choice` and `Quot.sound` (checked with `#print axioms`); no other axioms, no `sorry`, no
  `native_decide`.
* The reading of the Go code into the model (each definition cites its lines).
* Go memory model facts used: mutex critical sections and `sync/atomic` operations are linearizable; channels are
  FIFO; a receiver parked on a channel gets the value of the next send.
* Libraries modelled from their sources or documentation: package `flag` (with and without the check of names that Go 1.17 added), `strconv.Atoi`, `encoding/pem`, `encoding/asn1`, the keys of `crypto/x509` and `crypto/rsa`, and `encoding/json` (Go 1.17),
  `encoding/base64`, `net/url` (in connection strings without IPv6 and percent-encoded hosts), `lib/pq` v1.10.9 (`ParseURL`, `parseOpts`, `NewConnector`), `net.SplitHostPort`, go-ora's `BuildUrl` and URL parsing (service, user, options as texts), `database/sql` limits,
  `go-redis` hooks, `fasthttp-routing` `Context.Next`, redis commands used by the Lua scripts.
* Theorems are tested against wrong programs: `seeded/LOG.jsonl` lists the edits of the model that were tried, the
  theorems that failed, and those that were tightened.
