import Verif.Common.Bytes

/-
Model of /repo/skywalking/conf.go and factory.go: the reporter and the tracer made from a configuration (C99).

go2sky v1.4.0: `NewTracer` rejects an empty service name, applies the options, and if there is a reporter and no instance makes up an
instance name; then it boots the reporter with service and instance.  Dialling the collector is an input.
-/

namespace Gears.Skywalking

open Gears.Str

/-- `Conf` (conf.go:5-10). -/
structure TraceConf where
  serverAddr : Bytes
  serviceName : Bytes
  serviceInstance : Bytes
  serviceNamespace : Bytes
deriving DecidableEq, Repr

/-- Reporters: `noopReporter` (factory.go:9-22), the one of go2sky (intervals in seconds). -/
inductive Reporter where
  | noop
  | grpc (addr : Bytes) (cds check : Nat)
deriving DecidableEq, Repr

/-- What a call gives. -/
inductive Made (α : Type) where
  | ok (a : α)
  | err (e : Bytes)
  /-- nil pointer dereference -/
  | panic
deriving DecidableEq, Repr

/-- `NewGrpcOrNoopReporter` (factory.go:24-38); the configuration may be nil.  `dial addr` is the error of `NewGRPCReporter`, if any. -/
def newReporter (dial : Bytes → Option Bytes) : Option TraceConf → Made Reporter
  | none => .ok .noop
  | some c =>
    if c.serverAddr = [] then .ok .noop
    else match dial c.serverAddr with
      | none => .ok (.grpc c.serverAddr 60 10)
      | some e => .err e

/-- The tracer of go2sky: under which name and instance the reporter was booted. -/
structure Tracer where
  service : Bytes
  inst : Bytes
  reporter : Option Reporter
deriving DecidableEq, Repr

/-- `go2sky.NewTracer`; `fresh` is the instance name made up, or the error of it. -/
def go2skyNewTracer (fresh : Except Bytes Bytes) (service : Bytes) (rep : Option Reporter) (inst : Bytes) : Made Tracer :=
  if service = [] then .err (ascii "parameter are nil")
  else match rep with
    | none => .ok ⟨service, inst, none⟩
    | some r =>
      if inst = [] then
        match fresh with
        | .ok i => .ok ⟨service, i, some r⟩
        | .error e => .err e
      else .ok ⟨service, inst, some r⟩

/-- `NewTracer` (factory.go:40-45). -/
def newTracer (fresh : Except Bytes Bytes) (c : Option TraceConf) (rep : Option Reporter) : Made Tracer :=
  match c with
  | none => .panic
  | some c => go2skyNewTracer fresh (c.serviceNamespace ++ ascii "::" ++ c.serviceName) rep c.serviceInstance

/-! ## C99 -/

/-- The two colons that separate namespace and name are at place i of s. -/
def ColonsAt (s : Bytes) (i : Nat) : Prop := s[i]? = some 58 ∧ s[i + 1]? = some 58

instance (s : Bytes) (i : Nat) : Decidable (ColonsAt s i) := inferInstanceAs (Decidable (_ ∧ _))

theorem colonsAt_append (a b : Bytes) : ColonsAt (a ++ 58 :: 58 :: b) a.length := by
  constructor
  · rw [List.getElem?_append_right (by omega)]; simp
  · rw [List.getElem?_append_right (by omega)]; simp

theorem colonsAt_split (s : Bytes) (i : Nat) (h : ColonsAt s i) : s = s.take i ++ 58 :: 58 :: s.drop (i + 2) := by
  obtain ⟨h1, h2⟩ := h
  obtain ⟨l1, e1⟩ := List.getElem?_eq_some_iff.1 h1
  obtain ⟨l2, e2⟩ := List.getElem?_eq_some_iff.1 h2
  conv => lhs; rw [← List.take_append_drop i s]
  rw [List.drop_eq_getElem_cons l1, List.drop_eq_getElem_cons l2, e1, e2]

theorem newTracer_service (f : Except Bytes Bytes) (d : TraceConf) (p : Option Reporter) (t : Tracer) (h : newTracer f (some d) p = .ok t) :
    t.service = d.serviceNamespace ++ 58 :: 58 :: d.serviceName := by
  have e : ∀ x y : Bytes, x ++ ascii "::" ++ y = x ++ 58 :: 58 :: y := by intro x y; rw [List.append_assoc]; rfl
  simp only [newTracer, e, go2skyNewTracer] at h
  rw [if_neg (by simp)] at h
  cases p with
  | none => simp at h; rw [← h]
  | some r =>
    simp only at h
    split at h
    · cases f <;> simp at h
      rw [← h]
    · simp at h; rw [← h]

/-- The full statement of C99. -/
structure C99Claim : Prop where
  /-- Without configuration or server address nothing is dialled and there is a tracer which reports nothing. -/
  off : ∀ (dial : Bytes → Option Bytes) (c : Option TraceConf) (i : Bytes), (∀ d, c = some d → d.serverAddr = []) →
    ∃ r t, newReporter dial c = .ok r ∧ newTracer (.ok i) c (some r) = .ok t ∧ t.reporter = some .noop
  /-- Tracers with the same service name are made from the same namespace and name. -/
  distinct : ∀ (c d : TraceConf) (r q : Option Reporter) (f g : Except Bytes Bytes) (t u : Tracer), newTracer f (some c) r = .ok t →
    newTracer g (some d) q = .ok u → t.service = u.service → c.serviceNamespace = d.serviceNamespace ∧ c.serviceName = d.serviceName

/-- The reporter: the noop one exactly without configuration or address, otherwise one for that address
    (reading the configuration of the server every minute, checking every ten seconds) or the error of dialling. -/
theorem C99_reporter (dial : Bytes → Option Bytes) (c : Option TraceConf) :
    (newReporter dial c = .ok .noop ↔ ∀ d, c = some d → d.serverAddr = []) ∧
    (∀ d, c = some d → d.serverAddr ≠ [] → newReporter dial c = .ok (.grpc d.serverAddr 60 10) ∧ dial d.serverAddr = none ∨
      ∃ e, newReporter dial c = .err e ∧ dial d.serverAddr = some e) := by
  cases c with
  | none => simp [newReporter]
  | some d =>
    by_cases h : d.serverAddr = []
    · simp [newReporter, h]
    · cases hd : dial d.serverAddr <;> simp [newReporter, h, hd]

/-- **C99** (partial): a configuration that is not nil always gives a tracer with the given reporter, whose service name is namespace, two
    colons, name, under the configured instance (or a fresh one).  The service is confused with no other exactly if these are the only
    two adjacent colons in the name.  Missing: nil configurations and names with more colons. -/
theorem C99_partial (c : TraceConf) (r : Reporter) (i : Bytes) :
    (∃ t, newTracer (.ok i) (some c) (some r) = .ok t ∧ t.reporter = some r ∧ t.service = c.serviceNamespace ++ 58 :: 58 :: c.serviceName ∧
      t.inst = (if c.serviceInstance = [] then i else c.serviceInstance)) ∧
    ((∀ (d : TraceConf) (t u : Tracer) (f g : Except Bytes Bytes) (p q : Option Reporter), newTracer f (some c) p = .ok t →
        newTracer g (some d) q = .ok u → t.service = u.service → c.serviceNamespace = d.serviceNamespace ∧ c.serviceName = d.serviceName) ↔
      ∀ j, ColonsAt (c.serviceNamespace ++ 58 :: 58 :: c.serviceName) j → j = c.serviceNamespace.length) := by
  have e : ∀ x y : Bytes, x ++ ascii "::" ++ y = x ++ 58 :: 58 :: y := by intro x y; rw [List.append_assoc]; rfl
  have sv := newTracer_service
  have mk : ∀ (d : TraceConf), ∃ t, newTracer (.ok i) (some d) none = .ok t := by
    intro d
    exact ⟨⟨d.serviceNamespace ++ 58 :: 58 :: d.serviceName, d.serviceInstance, none⟩, by simp [newTracer, e, go2skyNewTracer]⟩
  refine ⟨?_, fun h j hj => ?_, fun h d t u f g p q ht hu heq => ?_⟩
  · simp only [newTracer, e, go2skyNewTracer]
    rw [if_neg (by simp)]
    split
    · exact ⟨_, rfl, rfl, rfl, rfl⟩
    · exact ⟨_, rfl, rfl, rfl, rfl⟩
  · have hs := colonsAt_split _ _ hj
    have hlt : j < (c.serviceNamespace ++ 58 :: 58 :: c.serviceName).length := (List.getElem?_eq_some_iff.1 hj.1).1
    obtain ⟨t, ht⟩ := mk c
    obtain ⟨u, hu⟩ := mk ⟨[], (c.serviceNamespace ++ 58 :: 58 :: c.serviceName).drop (j + 2), [],
      (c.serviceNamespace ++ 58 :: 58 :: c.serviceName).take j⟩
    have := (h _ t u _ _ _ _ ht hu (by rw [sv _ _ _ _ ht, sv _ _ _ _ hu]; exact hs)).1
    rw [this]
    show j = ((c.serviceNamespace ++ 58 :: 58 :: c.serviceName).take j).length
    rw [List.length_take]; omega
  · rw [sv _ _ _ _ ht, sv _ _ _ _ hu] at heq
    have hl := h d.serviceNamespace.length (heq ▸ colonsAt_append _ _)
    obtain ⟨h1, h2⟩ := List.append_inj heq hl.symm
    simp at h2
    exact ⟨h1, h2⟩

/-- **C99** (partial): services of namespaces without colons are distinct, whatever their names. -/
theorem C99_plain_partial (c d : TraceConf) (hc : 58 ∉ c.serviceNamespace) (hd : 58 ∉ d.serviceNamespace) (f g : Except Bytes Bytes)
    (p q : Option Reporter) (t u : Tracer) (ht : newTracer f (some c) p = .ok t) (hu : newTracer g (some d) q = .ok u)
    (heq : t.service = u.service) : c.serviceNamespace = d.serviceNamespace ∧ c.serviceName = d.serviceName := by
  have sv := newTracer_service
  rw [sv _ _ _ _ ht, sv _ _ _ _ hu] at heq
  have h1 := cut_append (58 :: c.serviceName) hc
  have h2 := cut_append (58 :: d.serviceName) hd
  rw [heq, h2] at h1
  simp at h1
  exact ⟨h1.1.symm, h1.2.symm⟩

/-- **C99** (violated): a nil configuration, for which NewGrpcOrNoopReporter gives a reporter, makes NewTracer panic; service b::c of
    namespace a and service c of namespace a::b are the same to the collector. -/
theorem C99_violated : ¬ C99Claim ∧ (∀ dial f r, newReporter dial none = .ok .noop ∧ newTracer f none r = .panic) := by
  refine ⟨fun h => ?_, fun _ _ _ => ⟨rfl, rfl⟩⟩
  obtain ⟨r, t, -, h2, -⟩ := h.off (fun _ => none) none [] (by simp)
  simp [newTracer] at h2

theorem C99_names_violated (a b n : Bytes) : ∃ c d : TraceConf, c.serviceNamespace = a ++ 58 :: 58 :: b ∧ c.serviceName = n ∧
    d.serviceNamespace = a ∧ ∀ f r, newTracer f (some c) r = newTracer f (some d) r :=
  ⟨⟨[], n, [], a ++ 58 :: 58 :: b⟩, ⟨[], b ++ 58 :: 58 :: n, [], a⟩, rfl, rfl, rfl, fun f r => by
    have e : ∀ x y : Bytes, x ++ ascii "::" ++ y = x ++ 58 :: 58 :: y := by intro x y; rw [List.append_assoc]; rfl
    simp [newTracer, e]⟩

example : newTracer (.ok []) (some ⟨ascii "h:1", ascii "s", ascii "i", ascii "n"⟩) (some .noop) = .ok ⟨ascii "n::s", ascii "i", some .noop⟩ := by decide

example : ∀ j, ColonsAt (ascii "n::s:t") j → j = 1 := by
  intro j hj
  have : j < 6 := (List.getElem?_eq_some_iff.1 hj.1).1
  revert hj; revert j; decide

end Gears.Skywalking
