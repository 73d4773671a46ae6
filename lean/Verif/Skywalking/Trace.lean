import Verif.Skywalking.Model
import Verif.Skywalking.Factory
import Verif.Confs.Dsn
import Verif.Rsa.Props

/-
C136: traces across services.  What the middleware, the client helper and the redis hook of /repo/skywalking do with the tracer of go2sky v1.4.0, which is modelled here:
entry and exit spans, the context they leave, the header `sw8`.

Inputs are: whether the sampler wants a trace, the identifiers made up for a trace and a segment (`none`: making them failed), the next number of a span in its segment.
Simplifications: no correlation data (the header `sw8-correlation` is empty); the segment of a span in a context is still open; a request header arrives as it was set.
-/

namespace Gears.Skywalking

open Gears.Str

/-- `propagation.SpanContext`: what a service tells the next one about the span of a call. -/
structure Remote where
  trace    : Bytes
  segment  : Bytes
  span     : Int
  service  : Bytes
  inst     : Bytes
  endpoint : Bytes
  addr     : Bytes
deriving DecidableEq, Repr

/-- `SpanContext.EncodeSW8` -/
def encodeSW8 (c : Remote) : Bytes :=
  join 45 [itoa 1, b64encode c.trace, b64encode c.segment, itoa c.span, b64encode c.service, b64encode c.inst, b64encode c.endpoint, b64encode c.addr]

/-- `strconv.ParseInt(s, 10, bits)` -/
def parseIntBits (bits : Nat) (s : Bytes) : Option Int :=
  match Procs.atoi s with
  | some z => if -2 ^ (bits - 1) ≤ z ∧ z < 2 ^ (bits - 1) then some z else none
  | none => none

/-- `SpanContext.DecodeSW8`, for a header that is not empty -/
def decodeSW8 (header : Bytes) : Option Remote :=
  match split 45 header with
  | s :: t :: g :: n :: v :: i :: e :: a :: _ => do
    let _ ← parseIntBits 8 s
    let t ← b64decode t
    let g ← b64decode g
    let n ← parseIntBits 32 n
    let v ← b64decode v
    let i ← b64decode i
    let e ← b64decode e
    let a ← b64decode a
    return ⟨t, g, n, v, i, e, a⟩
  | _ => none

/-- A recorded span: trace, segment, number in the segment, the spans it refers to, the operation name of the first span of the segment. -/
structure Span where
  trace   : Bytes
  segment : Bytes
  span    : Int
  parent  : Int
  refs    : List Remote
  op      : Bytes
  first   : Bytes
deriving DecidableEq, Repr

/-- The active span of a context. -/
inductive Ctx where
  | none
  | noop
  | live (s : Span)
deriving DecidableEq, Repr

/-- The inputs of a call that creates a span. -/
structure Inputs where
  sampled : Bool
  ids     : Option (Bytes × Bytes)
  number  : Int

/-- `Tracer.createNoop`: there is nothing to record, since the tracer has no reporter or the trace is not sampled. -/
def createsNoop (t : Tracer) (ctx : Ctx) : Bool := t.reporter.isNone || ctx = .noop

/-- `Tracer.CreateLocalSpan`, behind the test for noop; `none`: error -/
def localSpan (x : Inputs) (ctx : Ctx) (op : Bytes) (refs : List Remote) : Option Ctx :=
  match ctx with
  | .live p => some (.live ⟨p.trace, p.segment, x.number, p.span, refs, op, p.first⟩)
  | _ =>
    if refs = [] ∧ !x.sampled then some .noop
    else match x.ids with
      | none => none
      | some (trace, segment) => some (.live ⟨(match refs with | r :: _ => r.trace | [] => trace), segment, 0, -1, refs, op, op⟩)

/-- `Tracer.CreateEntrySpan` -/
def createEntrySpan (t : Tracer) (x : Inputs) (ctx : Ctx) (op header : Bytes) : Option Ctx :=
  if op = [] then none
  else if createsNoop t ctx then some .noop
  else if header = [] then localSpan x ctx op []
  else match decodeSW8 header with
    | none => none
    | some r => localSpan x ctx op [r]

/-- `Tracer.CreateExitSpanWithContext`: the span, and the header it has set -/
def createExitSpan (t : Tracer) (x : Inputs) (ctx : Ctx) (op peer : Bytes) : Option (Ctx × Bytes) :=
  if op = [] ∨ peer = [] then none
  else if createsNoop t ctx then some (.noop, [])
  else match localSpan x ctx op [] with
    | some (.live s) => some (.live s, encodeSW8 ⟨s.trace, s.segment, s.span, t.service, t.inst, s.first, peer⟩)
    | some c => some (c, [])
    | none => none

/-- The context in which the handlers behind the middleware run (middleware.go:66-79); the tracer is not nil. -/
def middlewareCtx (t : Tracer) (x : Inputs) (ctx : Ctx) (req : Request) (header : Bytes) : Ctx :=
  match createEntrySpan t x ctx (operationName req) header with
  | none => ctx
  | some c => c

/-- The header with which a request of the client leaves (client_span.go:52-69). -/
def clientHeader (t : Option Tracer) (x : Inputs) (ctx : Ctx) (req : Request) : Bytes :=
  match t with
  | none => []
  | some t =>
    match createExitSpan t x ctx (operationName req) req.host with
    | none => []
    | some (_, h) => h

/-! ## The options of the redis hook -/

/-- `Option` (hook.go:30-52) -/
inductive HookOption where
  | addr (a : Bytes)
  | db (n : Int)
  | logError
  | argsReport

def HookOption.apply (o : HookOptions) : HookOption → HookOptions
  | .addr a => { o with peer := a }
  | .db n => { o with db := itoa n }
  | .logError => { o with logError := true }
  | .argsReport => { o with reportArgs := true }

/-- `NewHook` (hook.go:54-65) -/
def newHook (opts : List HookOption) : HookOptions := opts.foldl HookOption.apply ⟨[], [], false, false⟩

/-- What the hook does with a command: the `create` of `Model`, from go2sky.  A nil tracer is dereferenced behind the test of the parameters. -/
def hookCreates (t : Option Tracer) (x : Inputs) (ctx : Ctx) (op peer : Bytes) : Bool :=
  match t with
  | none => false
  | some t => (createExitSpan t x ctx op peer).isSome

/-! ## Specification -/

/-- A request on its way: it enters a service, whose handler calls the next one. -/
structure Hop where
  tracer : Tracer
  entry  : Inputs
  inReq  : Request
  exit   : Inputs
  outReq : Request

/-- The context of the handlers of each service, for a request that comes with `header`. -/
def journey : Bytes → List Hop → List Ctx
  | _, [] => []
  | header, h :: l =>
    let c := middlewareCtx h.tracer h.entry .none h.inReq header
    c :: journey (clientHeader (some h.tracer) h.exit c h.outReq) l

/-- A service that records: it has a reporter, identifiers can be made, the request names a host, numbers of spans fit into an int32. -/
structure Hop.Records (h : Hop) : Prop where
  reporter : h.tracer.reporter ≠ none
  entryIds : h.entry.ids ≠ none
  host     : h.outReq.host ≠ []
  number   : 0 ≤ h.exit.number ∧ h.exit.number < 2 ^ 31

/-- The address given last, and the database given last. -/
def lastAddr (opts : List HookOption) : Bytes := ((opts.filterMap fun o => match o with | .addr a => some a | _ => none).getLast?).getD []
def lastDb (opts : List HookOption) : Bytes := ((opts.filterMap fun o => match o with | .db n => some (itoa n) | _ => none).getLast?).getD []

/-! ## Lemmas -/

theorem atoi_itoa {z : Int} (h : -2 ^ 63 ≤ z ∧ z < 2 ^ 63) : Procs.atoi (itoa z) = some z := (Procs.atoi_iff _ _).2 ⟨Confs.itoa_decimal z, h⟩

theorem b64_dash (s : Bytes) : 45 ∉ b64encode s := fun h => (Rsa.b64encode_no s 45 h).1 rfl

theorem itoa_dash {z : Int} (h : 0 ≤ z) : 45 ∉ itoa z := fun hc => by
  have := Confs.itoa_digits z h 45 hc
  revert this; decide

theorem split_sw8 {c : Remote} (h : 0 ≤ c.span) : split 45 (encodeSW8 c) =
    [itoa 1, b64encode c.trace, b64encode c.segment, itoa c.span, b64encode c.service, b64encode c.inst, b64encode c.endpoint, b64encode c.addr] := by
  refine split_join (by simp) ?_
  intro w hw
  simp only [List.mem_cons, List.not_mem_nil, or_false] at hw
  rcases hw with rfl | rfl | rfl | rfl | rfl | rfl | rfl | rfl
  · exact itoa_dash (by omega)
  · exact b64_dash _
  · exact b64_dash _
  · exact itoa_dash h
  all_goals exact b64_dash _

theorem encode_ne {c : Remote} : encodeSW8 c ≠ [] := by
  have : itoa 1 = [49] := by decide +kernel
  simp [encodeSW8, join, this]

/-! ## C136 -/

/-- C136: a service reads from the header what the other one has written. -/
theorem C136_roundtrip (c : Remote) (h : 0 ≤ c.span ∧ c.span < 2 ^ 31) : decodeSW8 (encodeSW8 c) = some c := by
  have e1 : parseIntBits 8 (itoa 1) = some 1 := by decide +kernel
  have e2 : parseIntBits 32 (itoa c.span) = some c.span := by
    simp only [parseIntBits]
    rw [atoi_itoa (by omega)]
    simp; omega
  simp [decodeSW8, split_sw8 h.1, e1, e2, b64decode_encode]

theorem op_ne (req : Request) : operationName req ≠ [] := by simp [operationName]

/-- C136: when the middleware records a request that comes from outside: the tracer has a reporter, identifiers can be made, and the header names a span, or there is none
and the sampler wants the trace.  The trace is then the one of the header. -/
theorem C136_start (t : Tracer) (x : Inputs) (req : Request) (header : Bytes) (s : Span) :
    middlewareCtx t x .none req header = .live s ↔ t.reporter ≠ none ∧ ∃ trace segment, x.ids = some (trace, segment) ∧
      ((header = [] ∧ x.sampled = true ∧ s = ⟨trace, segment, 0, -1, [], operationName req, operationName req⟩) ∨
        (header ≠ [] ∧ ∃ r, decodeSW8 header = some r ∧ s = ⟨r.trace, segment, 0, -1, [r], operationName req, operationName req⟩)) := by
  obtain ⟨sm, ids, no⟩ := x
  simp only [middlewareCtx, createEntrySpan, op_ne, if_false, createsNoop, localSpan]
  rcases hr : t.reporter with _ | rep
  · simp
  · simp only [Option.isNone_some, Bool.false_or, reduceCtorEq, decide_false, Bool.false_eq_true, if_false]
    by_cases hh : header = []
    · subst hh
      cases sm <;> rcases ids with _ | ⟨tr, sg⟩
      · simp
      · simp
      · simp
      · constructor
        · intro h; simp at h; exact ⟨by simp, tr, sg, rfl, .inl ⟨rfl, rfl, h.symm⟩⟩
        · rintro ⟨-, tr', sg', e, ⟨-, -, rfl⟩ | ⟨h, -⟩⟩
          · simp at e; simp [e]
          · exact absurd rfl h
    · simp only [hh, if_false]
      rcases hd : decodeSW8 header with _ | r
      · simp
      · rcases ids with _ | ⟨tr, sg⟩
        · simp
        · constructor
          · intro h; simp at h; exact ⟨by simp, tr, sg, rfl, .inr ⟨hh, r, rfl, h.symm⟩⟩
          · rintro ⟨-, tr', sg', e, ⟨h, -⟩ | ⟨-, r', er, rfl⟩⟩
            · exact h.elim
            · simp at e er; simp [e, er]

/-- A header that cannot be read: the request is not recorded, whatever the sampler says. -/
theorem C136_garbled (t : Tracer) (x : Inputs) (req : Request) (header : Bytes) (hr : t.reporter ≠ none) (hh : header ≠ []) (hd : decodeSW8 header = none) :
    middlewareCtx t x .none req header = .none := by
  rcases h : t.reporter with _ | rep
  · exact absurd h hr
  · simp [middlewareCtx, createEntrySpan, op_ne, createsNoop, h, hh, hd]

theorem client_live {h : Hop} (hr : h.Records) (s : Span) : clientHeader (some h.tracer) h.exit (.live s) h.outReq =
    encodeSW8 ⟨s.trace, s.segment, h.exit.number, h.tracer.service, h.tracer.inst, s.first, h.outReq.host⟩ := by
  rcases hrep : h.tracer.reporter with _ | rep
  · exact absurd hrep hr.reporter
  · simp [clientHeader, createExitSpan, op_ne, hr.host, createsNoop, hrep, localSpan]

theorem middleware_next {h h' : Hop} (hr : h.Records) (hr' : h'.Records) (s : Span) (hf : s.first = operationName h.inReq) :
    ∃ s', middlewareCtx h'.tracer h'.entry .none h'.inReq (clientHeader (some h.tracer) h.exit (.live s) h.outReq) = .live s' ∧ s'.trace = s.trace ∧
      s'.refs = [⟨s.trace, s.segment, h.exit.number, h.tracer.service, h.tracer.inst, operationName h.inReq, h.outReq.host⟩] := by
  rw [client_live hr, hf]
  rcases hi : h'.entry.ids with _ | ⟨tr, sg⟩
  · exact absurd hi hr'.entryIds
  · exact ⟨_, (C136_start _ _ _ _ _).2 ⟨hr'.reporter, tr, sg, hi, .inr ⟨encode_ne, _, C136_roundtrip _ hr.number, rfl⟩⟩, rfl, rfl⟩

theorem live_first {t : Tracer} {x : Inputs} {req : Request} {header : Bytes} {s : Span} (h : middlewareCtx t x .none req header = .live s) :
    s.first = operationName req := by
  obtain ⟨-, tr, sg, -, ⟨-, -, rfl⟩ | ⟨-, r, -, rfl⟩⟩ := (C136_start _ _ _ _ _).1 h <;> rfl

/-- C136: a request that is recorded by the first service is recorded by all services on its way, under one trace; each refers to the span of the call by which it was
reached, and names the service, the instance, the operation and the address of it. -/
theorem C136_chain (header : Bytes) (hops : List Hop) (hr : ∀ h ∈ hops, h.Records) (s₀ : Span) (h₀ : (journey header hops).head? = some (.live s₀)) :
    ∀ (k : Nat) (h h' : Hop), hops[k]? = some h → hops[k + 1]? = some h' → ∃ s s', (journey header hops)[k]? = some (.live s) ∧
      (journey header hops)[k + 1]? = some (.live s') ∧ s.trace = s₀.trace ∧ s'.trace = s₀.trace ∧
      s'.refs = [⟨s₀.trace, s.segment, h.exit.number, h.tracer.service, h.tracer.inst, operationName h.inReq, h.outReq.host⟩] := by
  induction hops generalizing header s₀ with
  | nil => intro k h h' e; simp at e
  | cons g l ih =>
    simp only [journey, List.head?_cons, Option.some.injEq] at h₀
    intro k h h' e e'
    rcases l with _ | ⟨g', l⟩
    · simp at e'
    have hg := hr g (by simp)
    have hg' := hr g' (by simp)
    obtain ⟨s₁, hn, ht, hrefs⟩ := middleware_next hg hg' s₀ (live_first h₀)
    cases k with
    | zero =>
      simp only [List.getElem?_cons_zero, Option.some.injEq, Nat.zero_add, List.getElem?_cons_succ] at e e'
      subst e e'
      exact ⟨s₀, s₁, by simp [journey, h₀], by simp only [journey, h₀, hn, Nat.zero_add, List.getElem?_cons_succ, List.getElem?_cons_zero], rfl, ht, hrefs⟩
    | succ k =>
      simp only [List.getElem?_cons_succ] at e e'
      have := ih (clientHeader (some g.tracer) g.exit (middlewareCtx g.tracer g.entry .none g.inReq header) g.outReq) (fun h hh => hr h (by simp [hh]))
        s₁ (by simp only [journey, h₀, hn, List.head?_cons]) k h h' e (by simpa using e')
      rw [ht] at this
      rw [journey, List.getElem?_cons_succ, List.getElem?_cons_succ]
      exact this

/-- A request that the first service does not sample carries no header; the next service decides anew. -/
theorem C136_unsampled (h : Hop) (l : List Hop) (hs : h.entry.sampled = false) : journey [] (h :: l) = .noop :: journey [] l := by
  have hc : middlewareCtx h.tracer h.entry .none h.inReq [] = .noop := by
    have : createEntrySpan h.tracer h.entry .none (operationName h.inReq) [] = some .noop := by
      simp only [createEntrySpan, op_ne, if_false, if_true]
      split
      · rfl
      · simp [localSpan, hs]
    simp [middlewareCtx, this]
  have hh : clientHeader (some h.tracer) h.exit .noop h.outReq = [] := by
    by_cases hp : h.outReq.host = [] <;> simp [clientHeader, createExitSpan, op_ne, hp, createsNoop]
  simp only [journey, hc, hh]

/-- C136: a redis command or a call in a recorded handler belongs to the trace and the segment of the handler, below its span. -/
theorem C136_inside (t : Tracer) (x : Inputs) (s : Span) (op peer : Bytes) (c : Ctx) (header : Bytes) (h : createExitSpan t x (.live s) op peer = some (c, header))
    (hr : t.reporter ≠ none) : ∃ s', c = .live s' ∧ s'.trace = s.trace ∧ s'.segment = s.segment ∧ s'.parent = s.span ∧ s'.span = x.number ∧ s'.op = op := by
  rcases hrep : t.reporter with _ | rep
  · exact absurd hrep hr
  · simp only [createExitSpan] at h
    split at h
    · simp at h
    · simp [createsNoop, hrep, localSpan] at h
      exact ⟨_, h.1.symm, rfl, rfl, rfl, rfl, rfl⟩

/-- C136: the options of the hook: the last address and the last database count, the others count if they are there. -/
theorem C136_options (opts : List HookOption) : (newHook opts).peer = lastAddr opts ∧ (newHook opts).db = lastDb opts ∧
    ((newHook opts).logError = true ↔ .logError ∈ opts) ∧ ((newHook opts).reportArgs = true ↔ .argsReport ∈ opts) := by
  have key : ∀ (opts : List HookOption) (o : HookOptions), (opts.foldl HookOption.apply o).peer =
        ((opts.filterMap fun o => match o with | .addr a => some a | _ => none).getLast?).getD o.peer ∧
      (opts.foldl HookOption.apply o).db = ((opts.filterMap fun o => match o with | .db n => some (itoa n) | _ => none).getLast?).getD o.db ∧
      ((opts.foldl HookOption.apply o).logError = true ↔ o.logError = true ∨ .logError ∈ opts) ∧
      ((opts.foldl HookOption.apply o).reportArgs = true ↔ o.reportArgs = true ∨ .argsReport ∈ opts) := by
    intro opts
    induction opts with
    | nil => intro o; simp
    | cons a l ih =>
      intro o
      obtain ⟨h1, h2, h3, h4⟩ := ih (a.apply o)
      simp only [List.foldl_cons]
      rw [h1, h2, h3, h4]
      cases a <;> simp [HookOption.apply, List.getLast?_cons]
  obtain ⟨h1, h2, h3, h4⟩ := key opts ⟨[], [], false, false⟩
  exact ⟨h1, h2, by rw [newHook, h3]; simp, by rw [newHook, h4]; simp⟩

/-- The claim: a redis client with the hook works, whatever options the hook was made with. -/
def C136HookClaim : Prop := ∀ (t : Option Tracer) (x : Inputs) (ctx : Ctx) (opts : List HookOption) (cmd : Cmd) (e : Option Bytes), cmd.name ≠ [] →
  process (hookCreates t x ctx) (newHook opts) cmd e ≠ .panic

theorem process_panic (create : Bytes → Bytes → Bool) (o : HookOptions) (cmd : Cmd) (e : Option Bytes) :
    process create o cmd e = .panic ↔ create cmd.name o.peer = false := by
  simp only [process, beforeProcess, before]
  cases h : create cmd.name o.peer <;> simp [afterProcess]

/-- C136 (hook), what holds: a command panics exactly if the tracer is nil, no address (or an empty one) was given, the command has no name, or no identifiers can be made
for a new trace. -/
theorem C136_hook_partial (t : Option Tracer) (x : Inputs) (ctx : Ctx) (opts : List HookOption) (cmd : Cmd) (e : Option Bytes) :
    process (hookCreates t x ctx) (newHook opts) cmd e = .panic ↔ t = none ∨ lastAddr opts = [] ∨ cmd.name = [] ∨
      (ctx = .none ∧ x.sampled = true ∧ x.ids = none ∧ ∃ t', t = some t' ∧ t'.reporter ≠ none) := by
  rw [process_panic, (C136_options opts).1]
  rcases t with _ | t
  · simp [hookCreates]
  · simp only [hookCreates, createExitSpan]
    by_cases h1 : cmd.name = [] ∨ lastAddr opts = []
    · simp [h1]; rcases h1 with h1 | h1 <;> simp [h1]
    · have h1' := not_or.1 h1
      simp only [if_false, h1'.1, h1'.2, reduceCtorEq, false_or, Option.some.injEq, exists_eq_left']
      rcases hr : t.reporter with _ | rep
      · simp [createsNoop, hr]
      · cases ctx with
        | noop => simp [createsNoop]
        | live s => simp [createsNoop, hr, localSpan]
        | none =>
          obtain ⟨sm, ids, no⟩ := x
          cases sm <;> rcases ids with _ | ⟨a, b⟩ <;> simp [createsNoop, hr, localSpan]

/-- C136 (hook) does not hold: `NewHook(tracer)` without an address makes every command panic, and so does a nil tracer. -/
theorem C136_hook_violated : ¬ C136HookClaim ∧ (∀ t x ctx cmd e, process (hookCreates t x ctx) (newHook []) cmd e = .panic) ∧
    ∀ x ctx opts cmd e, process (hookCreates none x ctx) (newHook opts) cmd e = .panic := by
  have h2 : ∀ t x ctx cmd e, process (hookCreates t x ctx) (newHook []) cmd e = .panic := fun t x ctx cmd e =>
    (C136_hook_partial t x ctx [] cmd e).2 (.inr (.inl rfl))
  exact ⟨fun h => h none ⟨true, none, 0⟩ .none [] ⟨[1], [], none⟩ none (by simp) (h2 _ _ _ _ _), h2, fun x ctx opts cmd e => (C136_hook_partial none x ctx opts cmd e).2 (.inl rfl)⟩

/-! ## Examples -/

def exTracer (n : String) : Tracer := ⟨ascii n, ascii "i", some .noop⟩
def exHop (n : String) (k : UInt8) (sampled : Bool) : Hop :=
  ⟨exTracer n, ⟨sampled, some ([k], [k, k]), 0⟩, ⟨ascii "GET", ascii n, ascii "/a", []⟩, ⟨sampled, some ([k], [k, k]), 3⟩, ⟨ascii "GET", ascii "next", ascii "/b", []⟩⟩

/-- Three services; the second and the third do not sample, and record all the same. -/
example : journey [] [exHop "A" 1 true, exHop "B" 2 false, exHop "C" 3 false] =
    [.live ⟨[1], [1, 1], 0, -1, [], ascii "GET:/a", ascii "GET:/a"⟩,
     .live ⟨[1], [2, 2], 0, -1, [⟨[1], [1, 1], 3, ascii "A", ascii "i", ascii "GET:/a", ascii "next"⟩], ascii "GET:/a", ascii "GET:/a"⟩,
     .live ⟨[1], [3, 3], 0, -1, [⟨[1], [2, 2], 3, ascii "B", ascii "i", ascii "GET:/a", ascii "next"⟩], ascii "GET:/a", ascii "GET:/a"⟩] := by
  decide +kernel

example : ∀ h ∈ [exHop "A" 1 true, exHop "B" 2 false], h.Records := by
  intro h hh
  simp only [List.mem_cons, List.not_mem_nil, or_false] at hh
  rcases hh with rfl | rfl <;> exact ⟨by simp [exHop, exTracer], by simp [exHop], by decide, by decide⟩

example : decodeSW8 (ascii "1-x") = none := by decide +kernel

example : process (hookCreates (some (exTracer "A")) ⟨true, some ([1], [2]), 0⟩ .none) (newHook [.addr (ascii "h:6379"), .db 1]) ⟨ascii "get", ascii "get k", none⟩ none =
    .span (ascii "get") [.tag (ascii "db.statement") (ascii "get"), .tag (ascii "db.instance") (ascii "1"), .tag (ascii "db.type") (ascii "Redis"),
      .component 7, .layer (ascii "Cache"), .fin] := by decide +kernel

end Gears.Skywalking
