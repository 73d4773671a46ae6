import Verif.Confs.Model

/-
C115: `NewEsClient` (es.go:28-68) and `NewRedisClient` (redis.go:48-61) return connected clients only.
-/

namespace Gears.Confs

open Gears.Str

/-- `elasticsearch.Config`, the fields that are set. -/
structure EsConfig where
  addresses : List Bytes
  username  : Bytes
  password  : Bytes
  transport : Transport

/-- The answer to a ping: an error status or not, and what reading the body gives (an error or the text). -/
structure EsAnswer (E : Type) where
  isError : Bool
  body    : Except E Bytes

/-- How a constructor ends: with a client for this configuration, a panic with an error or a text, the end of the process. -/
inductive Ended (C E : Type) where
  | client (c : C)
  | panicErr (e : E)
  | panicText (s : Bytes)
  | exit
deriving DecidableEq

/-- What is left behind: responses that were received and not closed. -/
structure EsRun (E : Type) where
  ended  : Ended EsConfig E
  opened : Nat
  closed : Nat

/-- The configuration (es.go:30-44). -/
def esConfig (conf : EsConf) (customizer : Option (EsConfig → EsConfig)) : EsConfig :=
  let c : EsConfig := ⟨esAddresses conf, conf.username, conf.password, esTransport conf⟩
  match customizer with
  | none => c
  | some f => f c

/-- `NewEsClient` (es.go:28-68).  `newClient`: the error of `elasticsearch.NewClient`, if any; `ping`: the result of `Ping`.
`defer pingRes.Body.Close()` runs on every way out after it. -/
def newEsClient {E : Type} (conf : EsConf) (customizer : Option (EsConfig → EsConfig)) (newClient : EsConfig → Option E)
    (ping : EsConfig → Except E (EsAnswer E)) : EsRun E :=
  let c := esConfig conf customizer
  match newClient c with
  | some e => ⟨.panicErr e, 0, 0⟩
  | none =>
    match ping c with
    | .error e => ⟨.panicErr e, 0, 0⟩
    | .ok a =>
      if a.isError then
        match a.body with
        | .error e => ⟨.panicErr e, 1, 1⟩
        | .ok b => ⟨.panicText (ascii "Connected to Elasticsearch error: " ++ b), 1, 1⟩
      else ⟨.client c, 1, 1⟩

/-- `NewRedisClient` (redis.go:48-61); `Fatal` ends the process. -/
def newRedisClient {E : Type} (rc : RedisConf) (customizer : Option (RedisOptions → RedisOptions)) (ping : RedisOptions → Option E) :
    Ended RedisOptions E :=
  let o := prepareRedis rc customizer
  match ping o with
  | some _ => .exit
  | none => .client o

/-! ## C115 -/

/-- The parts of a text between commas. -/
def Parts (s : Bytes) (l : List Bytes) : Prop := join 44 l = s ∧ l ≠ [] ∧ ∀ p ∈ l, 44 ∉ p

theorem parts_split {s : Bytes} {l : List Bytes} : Parts s l ↔ split 44 s = l := by
  constructor
  · rintro ⟨rfl, h1, h2⟩; exact split_join h1 h2
  · rintro rfl; exact ⟨join_split _ _, split_ne _ _, split_free _ _⟩

/-- **C115** (elasticsearch).  Without customizer the configuration has the parts of the addresses, the user name and the password;
a customizer is given this configuration, and what it returns is used. -/
theorem C115_es_config (conf : EsConf) :
    Parts conf.addrs (esConfig conf none).addresses ∧ (esConfig conf none).username = conf.username ∧
    (esConfig conf none).password = conf.password ∧ ∀ f, esConfig conf (some f) = f (esConfig conf none) :=
  ⟨parts_split.2 rfl, rfl, rfl, fun _ => rfl⟩

/-- **C115** (elasticsearch).  A client is returned iff it could be created and the server answered without an error status; it is
the one for the configuration.  In every other case the function panics.  Every response received is closed. -/
theorem C115_es_client {E : Type} (conf : EsConf) (customizer : Option (EsConfig → EsConfig)) (newClient : EsConfig → Option E)
    (ping : EsConfig → Except E (EsAnswer E)) :
    (∀ c, (newEsClient conf customizer newClient ping).ended = .client c ↔ c = esConfig conf customizer ∧ newClient c = none ∧
      ∃ a, ping c = .ok a ∧ a.isError = false) ∧
    (newEsClient conf customizer newClient ping).ended ≠ .exit ∧
    (newEsClient conf customizer newClient ping).closed = (newEsClient conf customizer newClient ping).opened ∧
    ((newEsClient conf customizer newClient ping).opened = 1 ↔ newClient (esConfig conf customizer) = none ∧
      ∃ a, ping (esConfig conf customizer) = .ok a) := by
  unfold newEsClient
  simp only
  cases h1 : newClient (esConfig conf customizer) with
  | some e =>
    simp only
    refine ⟨fun c => ⟨fun h => by simp at h, fun ⟨h, h2, _⟩ => ?_⟩, by simp, by simp, by simp⟩
    rw [h, h1] at h2; simp at h2
  | none =>
    simp only
    cases h2 : ping (esConfig conf customizer) with
    | error e =>
      simp only
      refine ⟨fun c => ⟨fun h => by simp at h, fun ⟨h, _, a, h3, _⟩ => ?_⟩, by simp, by simp, by simp⟩
      rw [h, h2] at h3; simp at h3
    | ok a =>
      simp only
      cases h3 : a.isError with
      | false =>
        simp only [Bool.false_eq_true, if_false]
        refine ⟨fun c => ⟨fun h => ?_, fun ⟨h, _⟩ => by rw [h]⟩, by simp, by simp, by simp⟩
        simp at h; subst h
        exact ⟨rfl, h1, a, h2, h3⟩
      | true =>
        simp only [if_true]
        have hno : ∀ c, c = esConfig conf customizer ∧ newClient c = none ∧ (∃ a, ping c = .ok a ∧ a.isError = false) → False := by
          rintro c ⟨rfl, -, a', h4, h5⟩
          rw [h2] at h4; simp at h4; subst h4
          rw [h3] at h5; simp at h5
        cases h4 : a.body <;> simp only <;>
          exact ⟨fun c => ⟨fun h => by simp at h, fun h => (hno c h).elim⟩, by simp, by simp, by simp⟩

/-- **C115** (elasticsearch).  An error status is reported with the text of the answer. -/
theorem C115_es_status {E : Type} (conf : EsConf) (customizer : Option (EsConfig → EsConfig)) (newClient : EsConfig → Option E)
    (ping : EsConfig → Except E (EsAnswer E)) (b : Bytes) (h1 : newClient (esConfig conf customizer) = none)
    (h2 : ping (esConfig conf customizer) = .ok ⟨true, .ok b⟩) :
    (newEsClient conf customizer newClient ping).ended = .panicText (ascii "Connected to Elasticsearch error: " ++ b) := by
  simp [newEsClient, h1, h2]

/-- **C115** (redis).  A client is returned iff the ping succeeded, the one for the prepared options (see C85); otherwise the process
ends. -/
theorem C115_redis_client {E : Type} (rc : RedisConf) (customizer : Option (RedisOptions → RedisOptions)) (ping : RedisOptions → Option E) :
    (∀ o, newRedisClient rc customizer ping = .client o ↔ o = prepareRedis rc customizer ∧ ping o = none) ∧
    ((∀ o, newRedisClient rc customizer ping ≠ .client o) → newRedisClient rc customizer ping = .exit) := by
  unfold newRedisClient
  simp only
  cases h : ping (prepareRedis rc customizer) with
  | none =>
    refine ⟨fun o => ⟨fun h1 => ?_, fun h1 => by rw [h1.1]⟩, fun h1 => absurd rfl (h1 _)⟩
    simp at h1; subst h1; exact ⟨rfl, h⟩
  | some e =>
    refine ⟨fun o => ⟨fun h1 => by simp at h1, fun h1 => ?_⟩, fun _ => rfl⟩
    rw [h1.1, h] at h1; simp at h1

example : Parts (ascii "http://a:9200,http://b:9200") [ascii "http://a:9200", ascii "http://b:9200"] :=
  parts_split.2 (by decide +kernel)

end Gears.Confs
