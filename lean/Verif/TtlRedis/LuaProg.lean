import Verif.TtlRedis.LuaRun

/-
The programs that the texts parse to.
-/

namespace Gears.TtlRedis.Lua

def args : List Expr → Args
  | [] => .nil
  | e :: l => .cons e (args l)

def block : List Stmt → Block
  | [] => .nil
  | s :: l => .cons s (block l)

def pass : Stmt := .ret (.table (args [.num 0, .num 0, .num 0, .str ""]))

def push : List Stmt := [.call "redis.call" (args [.str "RPUSH", .var "key", .var "now"])]

def renew : List Stmt := [.call "redis.call" (args [.str "EXPIRE", .var "key", .bin .mul (.var "exp") (.num 2)]), pass]

def blocked : Stmt := .ifThen (.bin .eq (.call "redis.call" (args [.str "EXISTS", .var "keyb"])) (.num 1)) (block
    [.local "ttl" (.call "redis.call" (args [.str "TTL", .var "keyb"])),
     .local "omsg" (.call "redis.call" (args [.str "GET", .var "keyb"])),
     .ret (.table (args [.num 1, .num 0, .var "ttl", .var "omsg"]))])

def prog2 : Block := block [.local "keyb" (.index (.var "KEYS") (.num 1)), blocked, pass]

def tail5 : Block := block
  [.call "redis.call" (args [.str "SET", .var "keyb", .var "msg", .str "EX", .var "exp", .str "NX"]),
   .ret (.table (args [.num 1, .num 1, .var "exp", .var "msg"]))]

def tail4 : Block := .cons (.local "oldest" (.call "tonumber" (args [.index (.var "list") (.num 1)])))
  (.cons (.ifThen (.bin .gt (.bin .sub (.var "now") (.var "oldest")) (.var "win"))
    (block (push ++ .call "redis.call" (args [.str "LPOP", .var "key"]) :: renew))) tail5)

def tail3 : Block := .cons (.local "list" (.call "redis.call" (args [.str "LRANGE", .var "key", .num 0, .num 0])))
  (.cons (.ifThen (.bin .eq (.call "table.getn" (args [.var "list"])) (.num 0)) (block (push ++ renew))) tail4)

def tail2 : Block := .cons (.local "diff" (.bin .sub (.var "size") (.var "cap")))
  (.cons (.ifThen (.bin .gt (.var "diff") (.num 0))
    (block [.for "i" (.var "diff") (.num 1) (.neg (.num 1)) (block [.call "redis.call" (args [.str "LPOP", .var "key"])])])) tail3)

def tail1 : Block := .cons (.local "size" (.call "redis.call" (args [.str "LLEN", .var "key"])))
  (.cons (.ifThen (.bin .lt (.var "size") (.var "cap")) (block (push ++ renew))) tail2)

def prog1 : Block :=
  .cons (.local "key" (.index (.var "KEYS") (.num 1))) (.cons (.local "keyb" (.index (.var "KEYS") (.num 2)))
  (.cons (.local "cap" (.call "tonumber" (args [.index (.var "ARGV") (.num 1)])))
  (.cons (.local "win" (.call "tonumber" (args [.index (.var "ARGV") (.num 2)])))
  (.cons (.local "exp" (.call "tonumber" (args [.index (.var "ARGV") (.num 3)])))
  (.cons (.local "now" (.call "tonumber" (args [.index (.var "ARGV") (.num 4)])))
  (.cons (.local "msg" (.index (.var "ARGV") (.num 5)))
  (.cons (.ifThen (.bin .or (.bin .or (.bin .le (.var "cap") (.num 0)) (.bin .le (.var "win") (.num 0))) (.bin .le (.var "exp") (.num 0)))
    (block [pass]))
  (.cons blocked tail1))))))))

theorem prog2_text : parse text2 = some prog2 := by decide +kernel

theorem prog1_text : parse text1 = some prog1 := by decide +kernel

end Gears.TtlRedis.Lua
