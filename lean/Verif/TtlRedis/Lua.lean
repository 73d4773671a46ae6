/-
The texts of the two Lua scripts of /repo/ratelimiter/ttl_ratelimiter_redis.go, a parser for the part of Lua 5.1 they are written in, and an
interpreter.

* Numbers are integers (no others occur); the arithmetic of Lua's doubles is a parameter (`Arith` in LuaRun, the one of redis: `ieee` in Doubles).
* Values are nil, booleans, numbers, strings and tables of such values with keys 1, 2, …; `a.b` is a name.
* An error raised by `redis.call` or by an operation on values of the wrong type ends the script; what redis commands did before stays done.
-/

namespace Gears.TtlRedis.Lua

/-! ## Syntax -/

inductive Op where
  | or | le | lt | gt | eq | sub | mul
deriving DecidableEq, Repr

mutual
inductive Expr where
  | num (n : Int)
  | str (s : String)
  | var (x : String)
  | index (e i : Expr)
  | neg (e : Expr)
  | bin (op : Op) (a b : Expr)
  | call (f : String) (args : Args)
  | table (items : Args)
deriving DecidableEq, Repr

inductive Args where
  | nil
  | cons (e : Expr) (a : Args)
deriving DecidableEq, Repr
end

mutual
inductive Stmt where
  | local (x : String) (e : Expr)
  | ifThen (c : Expr) (b : Block)
  | for (x : String) (first last step : Expr) (b : Block)
  | ret (e : Expr)
  | call (f : String) (args : Args)
deriving DecidableEq, Repr

inductive Block where
  | nil
  | cons (s : Stmt) (b : Block)
deriving DecidableEq, Repr
end

/-! ## Lexer -/

inductive Tok where
  | name (s : String)
  | num (n : Nat)
  | str (s : String)
  | sym (s : String)
deriving DecidableEq, Repr

def isSpace (c : Char) : Bool := c = ' ' || c = '\n' || c = '\t' || c = '\r'
def isDigit (c : Char) : Bool := '0'.toNat ≤ c.toNat && c.toNat ≤ '9'.toNat
def isLetter (c : Char) : Bool :=
  ('a'.toNat ≤ c.toNat && c.toNat ≤ 'z'.toNat) || ('A'.toNat ≤ c.toNat && c.toNat ≤ 'Z'.toNat) || c = '_'
def isNameChar (c : Char) : Bool := isLetter c || isDigit c || c = '.'

/-- The text cut into tokens; the number bounds the number of steps. -/
def lex : Nat → List Char → Option (List Tok)
  | _, [] => some []
  | 0, _ => none
  | n + 1, c :: s =>
    if isSpace c then lex n s
    else if isLetter c then (lex n (s.dropWhile isNameChar)).map (.name (String.ofList (c :: s.takeWhile isNameChar)) :: ·)
    else if isDigit c then
      (lex n (s.dropWhile isDigit)).map (.num ((c :: s.takeWhile isDigit).foldl (fun a d => a * 10 + (d.toNat - 48)) 0) :: ·)
    else if c = '\'' then
      match s.dropWhile (· ≠ '\'') with
      | _ :: r => (lex n r).map (.str (String.ofList (s.takeWhile (· ≠ '\''))) :: ·)
      | [] => none
    else if (c = '=' ∨ c = '<' ∨ c = '>') ∧ s.head? = some '=' then (lex n (s.drop 1)).map (.sym (String.ofList [c, '=']) :: ·)
    else if c ∈ ['=', '<', '>', '-', '*', '(', ')', '{', '}', '[', ']', ','] then (lex n s).map (.sym (String.ofList [c]) :: ·)
    else none

/-! ## Parser -/

/-- Binary operators by level: `or`, comparisons, `-`, `*`. -/
def opAt : Nat → Tok → Option Op
  | 0, .name "or" => some .or
  | 1, .sym "<=" => some .le
  | 1, .sym "<" => some .lt
  | 1, .sym ">" => some .gt
  | 1, .sym "==" => some .eq
  | 2, .sym "-" => some .sub
  | 3, .sym "*" => some .mul
  | _, _ => none

def keywords : List String := ["local", "if", "then", "end", "for", "do", "return", "or"]

mutual
/-- Expressions of a level: 0–3 binary operators, 4 unary minus, 5 the rest. -/
def pExpr : Nat → Nat → List Tok → Option (Expr × List Tok)
  | 0, _, _ => none
  | n + 1, 5, ts =>
    match ts with
    | .num k :: ts => some (.num k, ts)
    | .str s :: ts => some (.str s, ts)
    | .sym "{" :: ts =>
      match pArgs n ts with
      | some (a, .sym "}" :: ts) => some (.table a, ts)
      | _ => none
    | .name f :: .sym "(" :: ts =>
      match pArgs n ts with
      | some (a, .sym ")" :: ts) => some (.call f a, ts)
      | _ => none
    | .name x :: .sym "[" :: ts =>
      match pExpr n 0 ts with
      | some (i, .sym "]" :: ts) => some (.index (.var x) i, ts)
      | _ => none
    | .name x :: ts => if x ∈ keywords then none else some (.var x, ts)
    | _ => none
  | n + 1, 4, ts =>
    match ts with
    | .sym "-" :: ts => (pExpr n 4 ts).map fun r => (.neg r.1, r.2)
    | ts => pExpr n 5 ts
  | n + 1, l, ts =>
    match pExpr n (l + 1) ts with
    | some (e, ts) => pRest n l e ts
    | none => none

/-- More operands of the level. -/
def pRest : Nat → Nat → Expr → List Tok → Option (Expr × List Tok)
  | 0, _, _, _ => none
  | n + 1, l, e, t :: ts =>
    match opAt l t with
    | some op =>
      match pExpr n (l + 1) ts with
      | some (e', ts) => pRest n l (.bin op e e') ts
      | none => none
    | none => some (e, t :: ts)
  | _ + 1, _, e, [] => some (e, [])

/-- Expressions with commas between them. -/
def pArgs : Nat → List Tok → Option (Args × List Tok)
  | 0, _ => none
  | n + 1, ts =>
    match pExpr n 0 ts with
    | some (e, .sym "," :: ts) => (pArgs n ts).map fun r => (.cons e r.1, r.2)
    | some (e, ts) => some (.cons e .nil, ts)
    | none => none
end

mutual
def pStmt : Nat → List Tok → Option (Stmt × List Tok)
  | 0, _ => none
  | n + 1, ts =>
    match ts with
    | .name "local" :: .name x :: .sym "=" :: ts => (pExpr n 0 ts).map fun r => (.local x r.1, r.2)
    | .name "return" :: ts => (pExpr n 0 ts).map fun r => (.ret r.1, r.2)
    | .name "if" :: ts =>
      match pExpr n 0 ts with
      | some (c, .name "then" :: ts) =>
        match pBlock n ts with
        | some (b, .name "end" :: ts) => some (.ifThen c b, ts)
        | _ => none
      | _ => none
    | .name "for" :: .name x :: .sym "=" :: ts =>
      match pExpr n 0 ts with
      | some (a, .sym "," :: ts) =>
        match pExpr n 0 ts with
        | some (b, .sym "," :: ts) =>
          match pExpr n 0 ts with
          | some (c, .name "do" :: ts) =>
            match pBlock n ts with
            | some (d, .name "end" :: ts) => some (.for x a b c d, ts)
            | _ => none
          | _ => none
        | _ => none
      | _ => none
    | ts =>
      match pExpr n 5 ts with
      | some (.call f a, ts) => some (.call f a, ts)
      | _ => none

/-- Statements up to `end` or the end of the text. -/
def pBlock : Nat → List Tok → Option (Block × List Tok)
  | 0, _ => none
  | n + 1, ts =>
    match ts with
    | [] => some (.nil, [])
    | .name "end" :: ts => some (.nil, .name "end" :: ts)
    | ts =>
      match pStmt n ts with
      | some (s, ts) => (pBlock n ts).map fun r => (.cons s r.1, r.2)
      | none => none
end

/-- The program of a text, given by its lines. -/
def parse (lines : List String) : Option Block :=
  let text := lines.flatMap fun l => l.toList ++ ['\n']
  match lex (text.length + 1) text with
  | none => none
  | some ts =>
    match pBlock (ts.length + 10) ts with
    | some (b, []) => some b
    | _ => none

/-! ## The texts -/

/-- `script1` (ttl_ratelimiter_redis.go:54-111). -/
def text1 : List String :=
  ["local key = KEYS[1]",
   "local keyb = KEYS[2]",
   "local cap = tonumber(ARGV[1])",
   "local win = tonumber(ARGV[2])",
   "local exp = tonumber(ARGV[3])",
   "local now = tonumber(ARGV[4])",
   "local msg = ARGV[5]",
   "",
   "if cap <= 0 or win <= 0 or exp <= 0",
   "then",
   "  return {0, 0, 0, ''}",
   "end",
   "",
   "if redis.call('EXISTS', keyb) == 1",
   "then",
   "  local ttl = redis.call('TTL', keyb)",
   "  local omsg = redis.call('GET', keyb)",
   "  return {1, 0, ttl, omsg}",
   "end",
   "",
   "local size = redis.call('LLEN', key)",
   "if size < cap",
   "then",
   "  redis.call('RPUSH', key, now)",
   "  redis.call('EXPIRE', key, exp * 2)",
   "  return {0, 0, 0, ''}",
   "end",
   "",
   "local diff = size - cap",
   "if diff > 0",
   "then",
   "  for i = diff, 1, -1",
   "  do",
   "    redis.call('LPOP', key)",
   "  end",
   "end",
   "",
   "local list = redis.call('LRANGE', key, 0, 0)",
   "",
   "if table.getn(list) == 0",
   "then",
   "  redis.call('RPUSH', key, now)",
   "  redis.call('EXPIRE', key, exp * 2)",
   "  return {0, 0, 0, ''}",
   "end",
   "",
   "local oldest = tonumber(list[1])",
   "if now - oldest > win",
   "then",
   "  redis.call('RPUSH', key, now)",
   "  redis.call('LPOP', key)",
   "  redis.call('EXPIRE', key, exp * 2)",
   "  return {0, 0, 0, ''}",
   "end",
   "",
   "redis.call('SET', keyb, msg, 'EX', exp, 'NX')",
   "return {1, 1, exp, msg}"]

/-- `script2` (ttl_ratelimiter_redis.go:114-124). -/
def text2 : List String :=
  ["local keyb = KEYS[1]",
   "",
   "if redis.call('EXISTS', keyb) == 1",
   "then",
   "  local ttl = redis.call('TTL', keyb)",
   "  local omsg = redis.call('GET', keyb)",
   "  return {1, 0, ttl, omsg}",
   "end",
   "",
   "return {0, 0, 0, ''}"]

end Gears.TtlRedis.Lua

