import Verif.Common.Bytes

/-
Model of /repo/skywalking: the tracing middleware for fasthttp-routing, the client span helper and the redis hook.

The calls on a span are recorded.  Whether a span can be created is an input (`Trace.lean` says when go2sky creates one, and how spans hang together).
The loop over the handlers of fasthttp-routing (Context.Next) is modelled, since what the middleware returns matters there.
-/

namespace Gears.Skywalking

open Gears.Str

/-- The options of middleware and client (middleware.go:34-51, client_span.go:22-39). -/
structure Options where
  logError : Bool
  log4xxBody : Bool

/-! ## The middleware -/

/-- What a handler does. -/
inductive Out where
  | ok
  | err (e : Bytes)
  /-- the handler calls Abort and returns nil -/
  | abort
  | panic
deriving DecidableEq, Repr

/-- The response, and `RequestCtx.Err`. -/
structure Resp where
  status : Int
  body : Bytes
  ctxErr : Option Bytes
deriving DecidableEq, Repr

/-- A handler of the chain: the middleware, or one that does not call Next. -/
inductive Handler where
  | plain (id : Nat) (f : Resp → Resp × Out)
  /-- `tracer = false`: nil.  `creates`: CreateEntrySpan gives a span for this request. -/
  | tracing (id : Nat) (tracer creates : Bool) (opts : Options)

inductive Ev where
  /-- a handler runs, and finds the context of this span -/
  | run (id : Nat) (ctx : Option Nat)
  | new (id : Nat)
  | error (id : Nat) (text : Option Bytes)
  | tagStatus (id : Nat) (status : Int)
  | fin (id : Nat)
deriving DecidableEq, Repr

/-- The outcome of Next. -/
inductive Res where
  | ok
  | err (e : Bytes)
  | panic
  /-- not reached -/
  | stuck
deriving DecidableEq, Repr

structure Ret where
  evs : List Ev
  resp : Resp
  /-- the context in the routing context -/
  ctx : Option Nat
  /-- the handlers behind the index -/
  rest : List Handler
  res : Res

/-- The calls after Next (middleware.go:81-104). -/
def close (id : Nat) (opts : Options) (resp : Resp) (e : Option Bytes) : List Ev :=
  (match e with
    | some t => [.error id (if opts.logError then some t else none)]
    | none =>
      match resp.ctxErr with
      | some t => [.error id (if opts.logError then some t else none)]
      | none =>
        if resp.status ≥ 400 then [.error id (if opts.log4xxBody then some resp.body else none)] else []) ++
  [.tagStatus id resp.status, .fin id]

/-- `Context.Next` of fasthttp-routing, with the handlers behind the index; `n` bounds their number.

    c.index++
    for n := len(c.handlers); c.index < n; c.index++ {
        if err := c.handlers[c.index](c); err != nil { return err }
    }
    return nil

The middleware (middleware.go:53-107) calls Next again; the index stays where that call left it. -/
def next : Nat → List Handler → Resp → Option Nat → Ret
  | _, [], r, c => ⟨[], r, c, [], .ok⟩
  | 0, h :: hs, r, c => ⟨[], r, c, h :: hs, .stuck⟩
  | n + 1, .plain id f :: hs, r, c =>
    match (f r).2 with
    | .ok =>
      let x := next n hs (f r).1 c
      { x with evs := .run id c :: x.evs }
    | .err e => ⟨[.run id c], (f r).1, c, hs, .err e⟩
    | .abort => ⟨[.run id c], (f r).1, c, [], .ok⟩
    | .panic => ⟨[.run id c], (f r).1, c, hs, .panic⟩
  | n + 1, .tracing id tracer creates opts :: hs, r, c =>
    if tracer && creates then
      let x := next n hs r (some id)
      match x.res with
      | .ok | .err _ =>
        -- the middleware returns nil, and the loop goes on
        let e := match x.res with | .err e => some e | _ => none
        let y := next n x.rest x.resp x.ctx
        { y with evs := .new id :: x.evs ++ close id opts x.resp e ++ y.evs }
      | _ => { x with evs := .new id :: x.evs }
    else
      let x := next n hs r c
      match x.res with
      | .ok =>
        let y := next n x.rest x.resp x.ctx
        { y with evs := x.evs ++ y.evs }
      | _ => x

/-- A request: the router calls Next once.  There is no context of a span at first (middleware.go:20-25). -/
def serve (hs : List Handler) (r : Resp) : Ret := next hs.length hs r none

/-! ## The client span helper -/

inductive Call where
  | component (n : Nat)
  | tag (key value : Bytes)
  | layer (name : Bytes)
  | error (text : Option Bytes)
  | fin
deriving DecidableEq, Repr

structure Request where
  method : Bytes
  host : Bytes
  path : Bytes
  uri : Bytes

structure CreateRes where
  /-- the calls on the span, if there is one -/
  span : Option (List Call)
  failed : Bool
deriving DecidableEq, Repr

/-- `getOperationNameForReq` (client_span.go:99-101) -/
def operationName (req : Request) : Bytes := req.method ++ 58 :: req.path

/-- `CreateSpan` (client_span.go:52-69); `create` is what `CreateExitSpan` does with operation name and peer. -/
def createSpan (tracer : Bool) (create : Bytes → Bytes → Bool) (req : Request) : CreateRes :=
  if !tracer then ⟨none, false⟩
  else if !create (operationName req) req.host then ⟨none, true⟩
  else ⟨some [.component 5005, .tag (ascii "http.method") req.method, .tag (ascii "url") req.uri, .layer (ascii "Http")], false⟩

/-- `EndSpan` (client_span.go:71-84): the calls made on the span. -/
def endSpan (opts : Options) (span : Option (List Call)) (status : Int) (body : Bytes) : Option (List Call) :=
  match span with
  | none => none
  | some l =>
    let l := if status ≥ 400 then l ++ [.error (if opts.log4xxBody then some body else none)] else l
    some (l ++ [.tag (ascii "status_code") (itoa status)] ++ [.fin])

/-- `EndSpanError` (client_span.go:86-97) -/
def endSpanError (opts : Options) (span : Option (List Call)) (e : Bytes) : Option (List Call) :=
  match span with
  | none => none
  | some l => some (l ++ [.error (if opts.logError then some e else none)] ++ [.fin])

/-! ## The redis hook -/

structure HookOptions where
  peer : Bytes
  db : Bytes
  logError : Bool
  reportArgs : Bool

structure Cmd where
  name : Bytes
  text : Bytes
  err : Option Bytes

/-- The loop of `quickJoin` (hook.go:131-140); `n` is the number of objects. -/
def quickJoinLoop (n : Nat) (sep : UInt8) : Nat → Bytes → List Bytes → Bytes
  | _, sb, [] => sb
  | i, sb, s :: l =>
    let sb := sb ++ s
    let sb := if (i : Int) < (n : Int) - 1 then sb ++ [sep] else sb
    quickJoinLoop n sep (i + 1) sb l

/-- `quickJoin` (hook.go:131-140) -/
def quickJoin (objs : List Bytes) (sep : UInt8) : Bytes := quickJoinLoop objs.length sep 0 [] objs

/-- `quickJoinError` (hook.go:162-174) -/
def quickJoinError (objs : List Cmd) (sep : UInt8) : Bytes :=
  objs.foldl (fun sb obj =>
    match obj.err with
    | none => sb
    | some e => (if sb.length > 0 then sb ++ [sep] else sb) ++ e) []

inductive HookRes where
  /-- the operation name, the calls on the span which is in the context now -/
  | span (op : Bytes) (l : List Call)
  /-- a call on a nil span -/
  | panic
deriving DecidableEq, Repr

/-- What both Before functions do with operation name and statement.  There is no span if `CreateExitSpanWithContext`
fails, and it is used without a check. -/
def before (create : Bytes → Bytes → Bool) (o : HookOptions) (op stmt : Bytes) : HookRes :=
  if !create op o.peer then .panic
  else .span op [.tag (ascii "db.statement") stmt, .tag (ascii "db.instance") o.db, .tag (ascii "db.type") (ascii "Redis"),
    .component 7, .layer (ascii "Cache")]

/-- `BeforeProcess` (hook.go:71-85) -/
def beforeProcess (create : Bytes → Bytes → Bool) (o : HookOptions) (cmd : Cmd) : HookRes :=
  before create o cmd.name (if o.reportArgs then cmd.text else cmd.name)

/-- `AfterProcess` (hook.go:87-103); `none`: no active span. -/
def afterProcess (o : HookOptions) (span : Option (List Call)) (cmd : Cmd) : Option (List Call) :=
  match span with
  | none => none
  | some l =>
    let l := match cmd.err with
      | none => l
      | some e => l ++ [.error (if o.logError then some e else none)]
    some (l ++ [.fin])

/-- `BeforeProcessPipeline` (hook.go:105-127) -/
def beforeProcessPipeline (create : Bytes → Bytes → Bool) (o : HookOptions) (cmds : List Cmd) : HookRes :=
  let op := quickJoin (cmds.map (·.name)) 124
  before create o op (if o.reportArgs then quickJoin (cmds.map (·.text)) 124 else op)

/-- `AfterProcessPipeline` (hook.go:142-160) -/
def afterProcessPipeline (o : HookOptions) (span : Option (List Call)) (cmds : List Cmd) : Option (List Call) :=
  match span with
  | none => none
  | some l =>
    let errs := quickJoinError cmds 124
    let l := if errs ≠ [] then l ++ [.error (if o.logError then some errs else none)] else l
    some (l ++ [.fin])

/-- A command with the hook (go-redis `hooks.process`): before, the command, which may fail, after with the context of
before. -/
def process (create : Bytes → Bytes → Bool) (o : HookOptions) (cmd : Cmd) (err : Option Bytes) : HookRes :=
  match beforeProcess create o { cmd with err := none } with
  | .panic => .panic
  | .span op l =>
    match afterProcess o (some l) { cmd with err := err } with
    | none => .span op l
    | some l => .span op l

/-- A pipeline with the hook; `errs` are the outcomes of the commands. -/
def processPipeline (create : Bytes → Bytes → Bool) (o : HookOptions) (cmds : List (Cmd × Option Bytes)) : HookRes :=
  match beforeProcessPipeline create o (cmds.map fun x => { x.1 with err := none }) with
  | .panic => .panic
  | .span op l =>
    match afterProcessPipeline o (some l) (cmds.map fun x => { x.1 with err := x.2 }) with
    | none => .span op l
    | some l => .span op l

end Gears.Skywalking
