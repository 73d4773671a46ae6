import Verif.TokenBucket.Props
import Verif.TokenBucket.Int64
import Verif.AtomicBucket.Props
import Verif.AtomicBucket.Bound
import Verif.SlidingWindow.Props
import Verif.FixedWindow.Props
import Verif.FixedWindow.Start
import Verif.TtlRedis.Props
import Verif.TtlRedis.Exact
import Verif.TtlRedis.Lua
import Verif.TtlRedis.LuaRun
import Verif.TtlRedis.LuaProg
import Verif.TtlRedis.LuaProps
import Verif.TtlRedis.LuaSpec
import Verif.TtlRedis.Sha1
import Verif.TtlRedis.Load
import Verif.CircuitBreaker.Props
import Verif.Sema.Props
import Verif.Bus.Props
import Verif.Bus.Life
import Verif.Bus.Progress
import Verif.Schedule.Props
import Verif.TaskManager.Props
import Verif.Conf.NamingProps
import Verif.Conf.ReflectProps
import Verif.Conf.LoadProps
import Verif.Conf.FullProps
import Verif.Confstore.Props
import Verif.Confstore.Reads
import Verif.Confstore.Conc
import Verif.Confstore.Deadlock
import Verif.Confstore.Race
import Verif.Procs.Props
import Verif.Confs.Props
import Verif.Confs.Dsn
import Verif.Confs.Oracle
import Verif.Rsa.Props
import Verif.Skywalking.Props
import Verif.Duration.Model
import Verif.Duration.Lemmas
import Verif.Duration.Props
import Verif.Confs.MysqlDsn
import Verif.Confs.MysqlProps
import Verif.Skywalking.Factory
import Verif.Testutil.Panic
import Verif.Common.Utf8
import Verif.Dto.Model
import Verif.Dto.Spec
import Verif.Dto.Lex
import Verif.Dto.Parse
import Verif.Dto.Enc
import Verif.Dto.Props
import Verif.Dto.Safe
import Verif.Conf.Values
import Verif.Conf.ValuesProps
import Verif.Conf.Yaml
import Verif.Conf.YamlProps
import Verif.Procs.Url
import Verif.Procs.UrlProps
import Verif.Schedule.Ctor
import Verif.Confs.Clients
import Verif.TokenBucket.Throughput
import Verif.Conf.ScalarProps
import Verif.AtomicBucket.Progress
import Verif.Strconv.Props
import Verif.Strconv.Plain
import Verif.Strconv.YamlFloat
import Verif.Strconv.YamlInt
import Verif.AtomicBucket.Int64
import Verif.Confs.PqProps
import Verif.CircuitBreaker.Outage
import Verif.Rsa.KeyProps
import Verif.Rsa.Works
import Verif.Rsa.Curve
import Verif.Confstore.PanicProps
import Verif.Schedule.Clock
import Verif.Schedule.ClockProps
import Verif.TtlRedis.Doubles
import Verif.Confstore.Cluster
import Verif.Schedule.JobLog
import Verif.TaskManager.Real
import Verif.Bus.Writers
import Verif.FixedWindow.Int64
import Verif.CircuitBreaker.Int64
import Verif.Conf.Package
import Verif.Sema.Fair
import Verif.Skywalking.Trace
import Verif.Common.Calls
import Verif.SlidingWindow.Late
import Verif.FixedWindow.Late
import Verif.TtlRedis.Skew
import Verif.Common.Atomic
import Verif.SlidingWindow.Instr
import Verif.FixedWindow.Instr
import Verif.TokenBucket.Instr
import Verif.CircuitBreaker.Instr
import Verif.TtlRedis.Globals
import Verif.Confstore.Instr
import Verif.Confstore.Methods
import Verif.Confstore.MethodProps
import Verif.Schedule.Instr
import Verif.Schedule.InstrProps
import Verif.Bus.Instr
import Verif.Bus.InstrProps
import Verif.TaskManager.Instr
import Verif.TaskManager.InstrProps
import Verif.TtlRedis.Retry
import Verif.TtlRedis.RetryProps
import Verif.Confstore.Late
import Verif.Confstore.LateProps
import Verif.Common.Wall
import Verif.SlidingWindow.Wall
import Verif.FixedWindow.Wall
import Verif.TokenBucket.Wall
import Verif.CircuitBreaker.Wall
import Verif.Arch32.Layout
import Verif.Arch32.Bucket
import Verif.Degenerate.Limiters
import Verif.Degenerate.Others
import Verif.Confstore.Reenter
import Verif.TtlRedis.Memory
import Verif.Schedule.Leave
import Verif.Conf.Twice
import Verif.TtlRedis.Loss
import Verif.Conf.Share
import Verif.Confstore.Loss
import Verif.Conf.Merge
import Verif.Conf.MergeProps
import Verif.Bus.Loop
import Verif.TtlRedis.Cluster
import Verif.Bus.Live
import Verif.Sema.Live
import Verif.Schedule.Live
import Verif.AtomicBucket.Live
import Verif.Conf.TextProps
import Verif.CircuitBreaker.Live
import Verif.Confstore.Fresh
import Verif.Conform.Props
import Verif.Conform.Redis
import Verif.TtlRedis.Again
import Verif.TtlRedis.Change
import Verif.Conform.Compare
import Verif.Conform.Shift
import Verif.TtlRedis.Reads
import Verif.CircuitBreaker.Nested
import Verif.Sema.Several
import Verif.Conform.Chain
import Verif.Conform.Thin
import Verif.CircuitBreaker.Tolerant
import Verif.Confstore.Keys
import Verif.Conform.Starve
import Verif.Conform.Somebody
import Verif.Conform.Sharp
import Verif.Conform.Saturated
import Verif.Conform.SharpAtomic
import Verif.Bus.Woken
