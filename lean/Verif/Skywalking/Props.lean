import Verif.Skywalking.Model

/-
C78–C80, C88.
-/

namespace Gears.Skywalking

open Gears.Str

/-! ## The chain without tracing -/

abbrev Plain := Nat × (Resp → Resp × Out)

/-- The handlers other than the middleware. -/
def plains : List Handler → List Plain
  | [] => []
  | .plain id f :: hs => (id, f) :: plains hs
  | .tracing .. :: hs => plains hs

/-- How a chain of handlers should run: one after the other, until one returns an error, aborts or panics. -/
def seq : List Plain → Resp → List Nat × Resp × Res
  | [], r => ([], r, .ok)
  | (id, f) :: l, r =>
    match f r with
    | (r', .ok) => (id :: (seq l r').1, (seq l r').2)
    | (r', .err e) => ([id], r', .err e)
    | (r', .abort) => ([id], r', .ok)
    | (r', .panic) => ([id], r', .panic)

/-- The handlers that ran. -/
def runs (evs : List Ev) : List Nat := evs.filterMap fun
  | .run id _ => some id
  | _ => none

/-- A middleware of the chain creates a span. -/
def creates : Handler → Bool
  | .tracing _ t c _ => t && c
  | _ => false

theorem runs_append (a b : List Ev) : runs (a ++ b) = runs a ++ runs b := by simp [runs]

theorem runs_close (id : Nat) (o : Options) (r : Resp) (e : Option Bytes) : runs (close id o r e) = [] := by
  unfold close
  split
  · simp [runs]
  · split
    · simp [runs]
    · split <;> simp [runs]

/-- The index only grows, and all handlers were run when Next returns nil. -/
theorem next_basic : ∀ (n : Nat) (hs : List Handler) (r : Resp) (c : Option Nat), hs.length ≤ n →
    (next n hs r c).res ≠ .stuck ∧ ((next n hs r c).res = .ok → (next n hs r c).rest = []) ∧
    ∃ pre, hs = pre ++ (next n hs r c).rest ∧
      (runs (next n hs r c).evs = (plains pre).map (·.1) ∨
        ((next n hs r c).rest = [] ∧ runs (next n hs r c).evs <+: (plains pre).map (·.1))) := by
  have plains_append : ∀ a b : List Handler, plains (a ++ b) = plains a ++ plains b := by
    intro a b
    induction a with
    | nil => rfl
    | cons h a ih => cases h <;> simp [plains, ih]
  have nil : ∀ (n : Nat) (r : Resp) (c : Option Nat), next n [] r c = ⟨[], r, c, [], .ok⟩ := by
    intro n r c; cases n <;> rfl
  intro n
  induction n with
  | zero =>
    intro hs r c h
    have : hs = [] := List.length_eq_zero_iff.1 (by omega)
    subst this
    exact ⟨by simp [next], by simp [next], [], rfl, .inl rfl⟩
  | succ n ih =>
    intro hs r c h
    cases hs with
    | nil => exact ⟨by simp [next], by simp [next], [], rfl, .inl rfl⟩
    | cons hd hs =>
      simp only [List.length_cons] at h
      cases hd with
      | plain id f =>
        simp only [next]
        cases ho : (f r).2 with
        | ok =>
          obtain ⟨h1, h2, pre, h3, h4⟩ := ih hs (f r).1 c (by omega)
          refine ⟨h1, h2, .plain id f :: pre, ?_, ?_⟩
          · simp only [List.cons_append]; rw [← h3]
          · rcases h4 with h4 | ⟨h4, h5⟩
            · left
              simp only [runs, List.filterMap_cons, plains, List.map_cons, List.cons.injEq, true_and]
              exact h4
            · right
              refine ⟨h4, ?_⟩
              simp only [runs, List.filterMap_cons, plains, List.map_cons]
              exact List.prefix_cons_inj _ |>.2 h5
        | err e => exact ⟨by simp, by simp, [.plain id f], rfl, .inl rfl⟩
        | abort =>
          refine ⟨by simp, by simp, .plain id f :: hs, by simp, .inr ⟨rfl, ?_⟩⟩
          simp only [runs, plains, List.map_cons, List.filterMap_cons, List.filterMap_nil]
          exact ⟨_, rfl⟩
        | panic => exact ⟨by simp, by simp, [.plain id f], rfl, .inl rfl⟩
      | tracing id t cr o =>
        have inner : ∀ c', ∃ pre, Handler.tracing id t cr o :: hs = pre ++ (next n hs r c').rest ∧
            (runs (next n hs r c').evs = (plains pre).map (·.1) ∨
              ((next n hs r c').rest = [] ∧ runs (next n hs r c').evs <+: (plains pre).map (·.1))) := by
          intro c'
          obtain ⟨_, _, pre, h3, h4⟩ := ih hs r c' (by omega)
          refine ⟨.tracing id t cr o :: pre, ?_, h4⟩
          simp only [List.cons_append]; rw [← h3]
        -- the run that follows
        have both : ∀ c' c'' r' , (∃ pre, Handler.tracing id t cr o :: hs = pre ++ (next n (next n hs r c').rest r' c'').rest ∧
            (runs (next n hs r c').evs ++ runs (next n (next n hs r c').rest r' c'').evs = (plains pre).map (·.1) ∨
              ((next n (next n hs r c').rest r' c'').rest = [] ∧
                runs (next n hs r c').evs ++ runs (next n (next n hs r c').rest r' c'').evs <+: (plains pre).map (·.1)))) ∧
            (next n (next n hs r c').rest r' c'').res ≠ .stuck ∧
            ((next n (next n hs r c').rest r' c'').res = .ok → (next n (next n hs r c').rest r' c'').rest = []) := by
          intro c' c'' r'
          obtain ⟨pre, h3, h4⟩ := inner c'
          obtain ⟨_, _, pre0, h30, _⟩ := ih hs r c' (by omega)
          have hl : (next n hs r c').rest.length ≤ n := by
            have := congrArg List.length h30
            simp at this; omega
          obtain ⟨g1, g2, pre', g3, g4⟩ := ih (next n hs r c').rest r' c'' hl
          refine ⟨?_, g1, g2⟩
          refine ⟨pre ++ pre', by rw [List.append_assoc, ← g3, ← h3], ?_⟩
          rcases h4 with h4 | ⟨h4, h5⟩
          · rw [h4, plains_append, List.map_append]
            rcases g4 with g4 | ⟨g4, g5⟩
            · left; rw [g4]
            · right; exact ⟨g4, (List.prefix_append_right_inj _).2 g5⟩
          · right
            rw [h4, nil]
            refine ⟨rfl, ?_⟩
            simp only [runs, List.filterMap_nil, List.append_nil]
            rw [plains_append, List.map_append]
            exact h5.trans (List.prefix_append _ _)
        simp only [next]
        split
        · obtain ⟨b1, b2, b3⟩ := both (some id) (next n hs r (some id)).ctx (next n hs r (some id)).resp
          have hruns : ∀ e, runs (Ev.new id :: (next n hs r (some id)).evs ++ close id o (next n hs r (some id)).resp e ++
              (next n (next n hs r (some id)).rest (next n hs r (some id)).resp (next n hs r (some id)).ctx).evs) =
              runs (next n hs r (some id)).evs ++
              runs (next n (next n hs r (some id)).rest (next n hs r (some id)).resp (next n hs r (some id)).ctx).evs := by
            intro e
            rw [runs_append, runs_append, runs_close]
            simp [runs]
          cases hx : (next n hs r (some id)).res with
          | ok => simp only [hruns]; exact ⟨b2, b3, b1⟩
          | err e => simp only [hruns]; exact ⟨b2, b3, b1⟩
          | panic =>
            obtain ⟨pre, h3, h4⟩ := inner (some id)
            simp only
            exact ⟨by simp [hx], by simp [hx], pre, h3, by simpa [runs] using h4⟩
          | stuck => exact absurd hx (ih hs r (some id) (by omega)).1
        · obtain ⟨b1, b2, b3⟩ := both c (next n hs r c).ctx (next n hs r c).resp
          cases hx : (next n hs r c).res with
          | ok => simp only [runs_append]; exact ⟨b2, b3, b1⟩
          | err e =>
            obtain ⟨pre, h3, h4⟩ := inner c
            simp only
            exact ⟨by simp [hx], by simp [hx], pre, h3, h4⟩
          | panic =>
            obtain ⟨pre, h3, h4⟩ := inner c
            simp only
            exact ⟨by simp [hx], by simp [hx], pre, h3, h4⟩
          | stuck => exact absurd hx (ih hs r c (by omega)).1

theorem next_nil (n : Nat) (r : Resp) (c : Option Nat) : next n [] r c = ⟨[], r, c, [], .ok⟩ := by
  cases n <;> rfl

/-- Without spans, or without errors, the handlers run as they should. -/
theorem next_seq : ∀ (n : Nat) (hs : List Handler) (r : Resp) (c : Option Nat), hs.length ≤ n →
    (hs.all (fun h => !creates h) = true ∨ ∀ e, (seq (plains hs) r).2.2 ≠ .err e) →
    (runs (next n hs r c).evs, (next n hs r c).resp, (next n hs r c).res) = seq (plains hs) r := by
  intro n
  induction n with
  | zero =>
    intro hs r c h _
    have : hs = [] := List.length_eq_zero_iff.1 (by omega)
    subst this; rfl
  | succ n ih =>
    intro hs r c h hh
    cases hs with
    | nil => rfl
    | cons hd hs =>
      simp only [List.length_cons] at h
      cases hd with
      | plain id f =>
        cases hf : f r with
        | mk r' o =>
          cases o with
          | ok =>
            have := ih hs r' c (by omega) (by
              rcases hh with hh | hh
              · left; simp only [List.all_cons, Bool.and_eq_true] at hh; exact hh.2
              · right; simpa [plains, seq, hf] using hh)
            simp only [next, plains, seq, hf]
            rw [← this]
            simp [runs]
          | err e => simp [next, plains, seq, hf, runs]
          | abort => simp [next, plains, seq, hf, runs]
          | panic => simp [next, plains, seq, hf, runs]
      | tracing id t cr o =>
        have hh' : hs.all (fun h => !creates h) = true ∨ ∀ e, (seq (plains hs) r).2.2 ≠ .err e := by
          rcases hh with hh | hh
          · left; simp only [List.all_cons, Bool.and_eq_true] at hh; exact hh.2
          · right; exact hh
        simp only [next, plains]
        split
        · rename_i hcr
          have hne : ∀ e, (seq (plains hs) r).2.2 ≠ .err e := by
            rcases hh with hh | hh
            · simp [creates, hcr] at hh
            · exact hh
          have := ih hs r (some id) (by omega) hh'
          have hb := next_basic n hs r (some id) (by omega)
          rw [← this] at hne ⊢
          cases hx : (next n hs r (some id)).res with
          | ok =>
            rw [hb.2.1 hx, next_nil]
            simp only [runs_append, runs_close]
            simp [runs]
          | err e => exact absurd hx (hne e)
          | panic => simp [runs, hx]
          | stuck => exact absurd hx hb.1
        · have := ih hs r c (by omega) hh'
          have hb := next_basic n hs r c (by omega)
          rw [← this]
          cases hx : (next n hs r c).res with
          | ok =>
            rw [hb.2.1 hx, next_nil]
            simp [runs]
          | err e => simp [hx]
          | panic => simp [hx]
          | stuck => exact absurd hx hb.1

/-! ## C88 -/

/-- The full statement of C88: which handlers run, the response and the result do not depend on the middleware. -/
def C88Claim : Prop := ∀ (hs : List Handler) (r : Resp),
  (runs (serve hs r).evs, (serve hs r).resp, (serve hs r).res) = seq (plains hs) r

/-- A handler that refuses, and one that must not run then. -/
def refuse : Handler := .plain 1 fun r => ({ r with status := 401 }, .err (ascii "unauthorized"))
def secret : Handler := .plain 2 fun r => ({ r with status := 200, body := ascii "secret" }, .ok)

/-- **C88** does not hold: the middleware returns nil, so the handler after the one that failed runs. -/
theorem C88_violated : ¬ C88Claim ∧
    runs (serve [.tracing 0 true true ⟨false, false⟩, refuse, secret] ⟨200, [], none⟩).evs = [1, 2] ∧
    (serve [.tracing 0 true true ⟨false, false⟩, refuse, secret] ⟨200, [], none⟩).resp = ⟨200, ascii "secret", none⟩ ∧
    (serve [.tracing 0 true true ⟨false, false⟩, refuse, secret] ⟨200, [], none⟩).res = .ok ∧
    runs (serve [refuse, secret] ⟨200, [], none⟩).evs = [1] := by
  refine ⟨fun h => ?_, by decide +kernel, by decide +kernel, by decide +kernel, by decide +kernel⟩
  have := congrArg (·.1) (h [.tracing 0 true true ⟨false, false⟩, refuse, secret] ⟨200, [], none⟩)
  revert this
  decide +kernel

/-- **C88**, what holds: without created spans, and if no handler returns an error. -/
theorem C88_partial (hs : List Handler) (r : Resp)
    (h : hs.all (fun h => !creates h) = true ∨ ∀ e, (seq (plains hs) r).2.2 ≠ .err e) :
    (runs (serve hs r).evs, (serve hs r).resp, (serve hs r).res) = seq (plains hs) r :=
  next_seq _ hs r none (Nat.le_refl _) h

/-- In any case handlers run in their order, none of them twice. -/
theorem C88_once (hs : List Handler) (r : Resp) : runs (serve hs r).evs <+: (plains hs).map (·.1) := by
  obtain ⟨_, _, pre, h1, h2⟩ := next_basic hs.length hs r none (Nat.le_refl _)
  have hp : ∀ a b : List Handler, plains (a ++ b) = plains a ++ plains b := by
    intro a b
    induction a with
    | nil => rfl
    | cons h a ih => cases h <;> simp [plains, ih]
  have : (plains pre).map (·.1) <+: (plains hs).map (·.1) := by
    rw [h1, hp, List.map_append]; exact List.prefix_append _ _
  rcases h2 with h2 | ⟨_, h2⟩
  · unfold serve; rw [h2]; exact this
  · exact h2.trans this

/-! ## C78 -/

/-- The full statement of C78, first part: the middleware returns what the rest of the chain returned. -/
def C78Claim : Prop := ∀ (id : Nat) (tracer cr : Bool) (o : Options) (hs : List Handler) (r : Resp),
  hs.all (fun h => !creates h) = true → (serve (.tracing id tracer cr o :: hs) r).res = (serve hs r).res

/-- **C78** does not hold: an error is swallowed. -/
theorem C78_violated : ¬ C78Claim := by
  intro h
  have := h 0 true true ⟨false, false⟩ [refuse] ⟨200, [], none⟩ (by decide)
  revert this
  decide +kernel

/-- **C78**, what holds: the rest of the chain runs as without the middleware if no span is made, or if it does not return
an error. -/
theorem C78_partial (id : Nat) (tracer cr : Bool) (o : Options) (hs : List Handler) (r : Resp)
    (hn : hs.all (fun h => !creates h) = true)
    (h : (tracer && cr) = false ∨ ∀ e, (serve hs r).res ≠ .err e) :
    (serve (.tracing id tracer cr o :: hs) r).res = (serve hs r).res ∧
    (serve (.tracing id tracer cr o :: hs) r).resp = (serve hs r).resp ∧
    runs (serve (.tracing id tracer cr o :: hs) r).evs = runs (serve hs r).evs := by
  have h2 := C88_partial hs r (.inl hn)
  have h1 := C88_partial (.tracing id tracer cr o :: hs) r (by
    rcases h with h | h
    · left
      rw [List.all_cons, hn]
      change (!(tracer && cr) && true) = true
      rw [h]; rfl
    · right
      intro e he
      refine h e ?_
      have := congrArg (·.2.2) h2
      simp only at this
      rw [this]; exact he)
  have : seq (plains (.tracing id tracer cr o :: hs)) r = seq (plains hs) r := rfl
  rw [this, ← h2] at h1
  simp only [Prod.mk.injEq] at h1
  exact ⟨h1.2.2, h1.2.1, h1.1⟩

/-- What is done to the span of a middleware. -/
def spanEvs (id : Nat) (evs : List Ev) : List Ev := evs.filter fun
  | .run _ _ => false
  | .new i => i = id
  | .error i _ => i = id
  | .tagStatus i _ => i = id
  | .fin i => i = id

/-- The middlewares of a chain. -/
def tracers : List Handler → List Nat
  | [] => []
  | .plain .. :: hs => tracers hs
  | .tracing id .. :: hs => id :: tracers hs

/-- No span, or one that was created, possibly marked as error, tagged and ended. -/
def Closed (id : Nat) (l : List Ev) : Prop :=
  l = [] ∨ (∃ s, l = [.new id, .tagStatus id s, .fin id]) ∨ ∃ t s, l = [.new id, .error id t, .tagStatus id s, .fin id]

theorem spanEvs_append (id : Nat) (a b : List Ev) : spanEvs id (a ++ b) = spanEvs id a ++ spanEvs id b := by
  simp [spanEvs]

theorem spanEvs_close (id : Nat) (o : Options) (r : Resp) (e : Option Bytes) : spanEvs id (close id o r e) = close id o r e := by
  unfold close
  split
  · simp [spanEvs]
  · split
    · simp [spanEvs]
    · split <;> simp [spanEvs]

theorem spanEvs_close_other (id i : Nat) (h : i ≠ id) (o : Options) (r : Resp) (e : Option Bytes) :
    spanEvs id (close i o r e) = [] := by
  unfold close
  split
  · simp [spanEvs, h]
  · split
    · simp [spanEvs, h]
    · split <;> simp [spanEvs, h]

theorem close_closed (id : Nat) (o : Options) (r : Resp) (e : Option Bytes) : Closed id (.new id :: close id o r e) := by
  unfold close
  split
  · exact .inr (.inr ⟨_, _, rfl⟩)
  · split
    · exact .inr (.inr ⟨_, _, rfl⟩)
    · split
      · exact .inr (.inr ⟨_, _, rfl⟩)
      · exact .inr (.inl ⟨_, rfl⟩)

theorem tracers_append (a b : List Handler) : tracers (a ++ b) = tracers a ++ tracers b := by
  induction a with
  | nil => rfl
  | cons h a ih => cases h <;> simp [tracers, ih]

theorem next_rest {n : Nat} {hs : List Handler} {r : Resp} {c : Option Nat} (h : hs.length ≤ n) :
    (next n hs r c).rest.length ≤ n ∧ (next n hs r c).rest <:+ hs := by
  obtain ⟨_, _, pre, h1, _⟩ := next_basic n hs r c h
  refine ⟨?_, pre, h1.symm⟩
  have := congrArg List.length h1
  simp at this; omega

/-- Spans belong to the middlewares that the index has passed. -/
theorem next_pre : ∀ (n : Nat) (hs : List Handler) (r : Resp) (c : Option Nat), hs.length ≤ n →
    ∃ pre, hs = pre ++ (next n hs r c).rest ∧ ∀ id, id ∉ tracers pre → spanEvs id (next n hs r c).evs = [] := by
  intro n
  induction n with
  | zero =>
    intro hs r c h
    have : hs = [] := List.length_eq_zero_iff.1 (by omega)
    subst this; exact ⟨[], rfl, fun _ _ => rfl⟩
  | succ n ih =>
    intro hs r c h
    cases hs with
    | nil => exact ⟨[], rfl, fun _ _ => rfl⟩
    | cons hd hs =>
      simp only [List.length_cons] at h
      cases hd with
      | plain i f =>
        simp only [next]
        cases (f r).2 with
        | ok =>
          obtain ⟨pre, h1, h2⟩ := ih hs (f r).1 c (by omega)
          refine ⟨.plain i f :: pre, ?_, fun id hid => ?_⟩
          · simp only [List.cons_append]; rw [← h1]
          · simpa [spanEvs] using h2 id hid
        | err e => exact ⟨[.plain i f], rfl, fun id _ => by simp [spanEvs]⟩
        | abort => exact ⟨.plain i f :: hs, by simp, fun id _ => by simp [spanEvs]⟩
        | panic => exact ⟨[.plain i f], rfl, fun id _ => by simp [spanEvs]⟩
      | tracing i t cr o =>
        have hlen : hs.length ≤ n := by omega
        have hx : ∀ c', ∃ pre, Handler.tracing i t cr o :: hs = (.tracing i t cr o :: pre) ++ (next n hs r c').rest ∧
            ∀ id, id ∉ tracers pre → spanEvs id (next n hs r c').evs = [] := by
          intro c'
          obtain ⟨pre, h1, h2⟩ := ih hs r c' hlen
          exact ⟨pre, by simp only [List.cons_append]; rw [← h1], h2⟩
        have hxy : ∀ c' r' c'', ∃ pre, Handler.tracing i t cr o :: hs =
            (.tracing i t cr o :: pre) ++ (next n (next n hs r c').rest r' c'').rest ∧
            ∀ id, id ∉ tracers pre → spanEvs id (next n hs r c').evs = [] ∧
              spanEvs id (next n (next n hs r c').rest r' c'').evs = [] := by
          intro c' r' c''
          obtain ⟨pre, h1, h2⟩ := hx c'
          obtain ⟨pre', h3, h4⟩ := ih (next n hs r c').rest r' c'' (next_rest hlen).1
          refine ⟨pre ++ pre', ?_, fun id hid => ?_⟩
          · rw [← List.cons_append, List.append_assoc, ← h3]; exact h1
          · rw [tracers_append, List.mem_append, not_or] at hid
            exact ⟨h2 id hid.1, h4 id hid.2⟩
        have hcl : ∀ id pre, id ∉ tracers (Handler.tracing i t cr o :: pre) → i ≠ id ∧ id ∉ tracers pre := by
          intro id pre hid
          simp only [tracers, List.mem_cons, not_or] at hid
          exact ⟨Ne.symm hid.1, hid.2⟩
        simp only [next]
        split
        · have key : ∀ id e, i ≠ id → spanEvs id (Ev.new i :: (next n hs r (some i)).evs ++
              close i o (next n hs r (some i)).resp e ++
              (next n (next n hs r (some i)).rest (next n hs r (some i)).resp (next n hs r (some i)).ctx).evs) =
              spanEvs id (next n hs r (some i)).evs ++
              spanEvs id (next n (next n hs r (some i)).rest (next n hs r (some i)).resp (next n hs r (some i)).ctx).evs := by
            intro id e hi
            have hnew : spanEvs id [Ev.new i] = [] := by simp [spanEvs, hi]
            rw [← List.singleton_append, spanEvs_append, spanEvs_append, spanEvs_append, hnew, spanEvs_close_other _ _ hi]
            simp
          have key' : ∀ id, i ≠ id → spanEvs id (Ev.new i :: (next n hs r (some i)).evs) =
              spanEvs id (next n hs r (some i)).evs := by
            intro id hi; simp [spanEvs, hi]
          cases hr : (next n hs r (some i)).res with
          | ok =>
            obtain ⟨pre, h1, h2⟩ := hxy (some i) (next n hs r (some i)).resp (next n hs r (some i)).ctx
            refine ⟨_, h1, fun id hid => ?_⟩
            obtain ⟨g1, g2⟩ := hcl id pre hid
            simp only
            rw [key id _ g1, (h2 id g2).1, (h2 id g2).2]; rfl
          | err e =>
            obtain ⟨pre, h1, h2⟩ := hxy (some i) (next n hs r (some i)).resp (next n hs r (some i)).ctx
            refine ⟨_, h1, fun id hid => ?_⟩
            obtain ⟨g1, g2⟩ := hcl id pre hid
            simp only
            rw [key id _ g1, (h2 id g2).1, (h2 id g2).2]; rfl
          | panic =>
            obtain ⟨pre, h1, h2⟩ := hx (some i)
            refine ⟨_, h1, fun id hid => ?_⟩
            obtain ⟨g1, g2⟩ := hcl id pre hid
            simp only
            rw [key' id g1, h2 id g2]
          | stuck => exact absurd hr (next_basic n hs r (some i) hlen).1
        · cases hr : (next n hs r c).res with
          | ok =>
            obtain ⟨pre, h1, h2⟩ := hxy c (next n hs r c).resp (next n hs r c).ctx
            refine ⟨_, h1, fun id hid => ?_⟩
            obtain ⟨g1, g2⟩ := hcl id pre hid
            simp only
            rw [spanEvs_append, (h2 id g2).1, (h2 id g2).2]; rfl
          | err e =>
            obtain ⟨pre, h1, h2⟩ := hx c
            exact ⟨_, h1, fun id hid => h2 id (hcl id pre hid).2⟩
          | panic =>
            obtain ⟨pre, h1, h2⟩ := hx c
            exact ⟨_, h1, fun id hid => h2 id (hcl id pre hid).2⟩
          | stuck => exact absurd hr (next_basic n hs r c hlen).1

theorem next_other (n : Nat) (hs : List Handler) (r : Resp) (c : Option Nat) (id : Nat) (h : hs.length ≤ n)
    (hid : id ∉ tracers hs) : spanEvs id (next n hs r c).evs = [] := by
  obtain ⟨pre, h1, h2⟩ := next_pre n hs r c h
  refine h2 id fun hm => hid ?_
  rw [h1, tracers_append]
  exact List.mem_append_left _ hm

theorem next_closed : ∀ (n : Nat) (hs : List Handler) (r : Resp) (c : Option Nat) (id : Nat), hs.length ≤ n →
    (tracers hs).Nodup → (next n hs r c).res ≠ .panic → Closed id (spanEvs id (next n hs r c).evs) := by
  intro n
  induction n with
  | zero =>
    intro hs r c id h _ _
    have : hs = [] := List.length_eq_zero_iff.1 (by omega)
    subst this; exact .inl rfl
  | succ n ih =>
    intro hs r c id h hnd
    cases hs with
    | nil => intro _; exact .inl rfl
    | cons hd hs =>
      simp only [List.length_cons] at h
      cases hd with
      | plain i f =>
        simp only [next]
        cases (f r).2 with
        | ok =>
          intro hp
          have := ih hs (f r).1 c id (by omega) hnd hp
          simpa [spanEvs] using this
        | err e => intro _; left; simp [spanEvs]
        | abort => intro _; left; simp [spanEvs]
        | panic => intro hp; simp at hp
      | tracing i t cr o =>
        simp only [tracers, List.nodup_cons] at hnd
        have hlen : hs.length ≤ n := by omega
        have hsub : ∀ c', tracers (next n hs r c').rest <:+ tracers hs := by
          intro c'
          obtain ⟨pre, hp⟩ := (next_rest (r := r) (c := c') hlen).2
          exact ⟨tracers pre, by rw [← tracers_append, hp]⟩
        -- the id is traced in the first or in the second part, not in both
        have hboth : ∀ c' r' c'', (next n hs r c').res ≠ .panic → (next n (next n hs r c').rest r' c'').res ≠ .panic →
            Closed id (spanEvs id (next n hs r c').evs ++ spanEvs id (next n (next n hs r c').rest r' c'').evs) := by
          intro c' r' c'' h1 h2
          have hl := (next_rest (r := r) (c := c') hlen).1
          have g1 := ih hs r c' id hlen hnd.2 h1
          have g2 := ih _ r' c'' id hl ((hsub c').sublist.nodup hnd.2) h2
          by_cases hm : id ∈ tracers (next n hs r c').rest
          · have : spanEvs id (next n hs r c').evs = [] := by
              obtain ⟨pre, e1, e2⟩ := next_pre n hs r c' hlen
              refine e2 id fun hm' => ?_
              have hnd' := hnd.2
              rw [e1, tracers_append, List.nodup_append] at hnd'
              exact hnd'.2.2 id hm' id hm rfl
            rw [this]; exact g2
          · rw [next_other n _ r' c'' id hl hm, List.append_nil]; exact g1
        simp only [next]
        split
        · by_cases hi : i = id
          · subst hi
            have hx := next_other n hs r (some i) i hlen hnd.1
            have hy := next_other n (next n hs r (some i)).rest (next n hs r (some i)).resp (next n hs r (some i)).ctx i
              (next_rest hlen).1 (fun hm => hnd.1 ((hsub (some i)).subset hm))
            have hnew : spanEvs i [Ev.new i] = [Ev.new i] := by simp [spanEvs]
            have key : ∀ e, spanEvs i (Ev.new i :: (next n hs r (some i)).evs ++ close i o (next n hs r (some i)).resp e ++
                (next n (next n hs r (some i)).rest (next n hs r (some i)).resp (next n hs r (some i)).ctx).evs) =
                Ev.new i :: close i o (next n hs r (some i)).resp e := by
              intro e
              rw [← List.singleton_append, spanEvs_append, spanEvs_append, spanEvs_append, hnew, hx, spanEvs_close, hy]
              simp
            cases hr : (next n hs r (some i)).res with
            | ok => intro _; simp only; rw [key]; exact close_closed _ _ _ _
            | err e => intro _; simp only; rw [key]; exact close_closed _ _ _ _
            | panic => intro hp; simp [hr] at hp
            | stuck => exact absurd hr (next_basic n hs r (some i) hlen).1
          · have hnew : spanEvs id [Ev.new i] = [] := by simp [spanEvs, hi]
            have key : ∀ e, spanEvs id (Ev.new i :: (next n hs r (some i)).evs ++ close i o (next n hs r (some i)).resp e ++
                (next n (next n hs r (some i)).rest (next n hs r (some i)).resp (next n hs r (some i)).ctx).evs) =
                spanEvs id (next n hs r (some i)).evs ++
                spanEvs id (next n (next n hs r (some i)).rest (next n hs r (some i)).resp (next n hs r (some i)).ctx).evs := by
              intro e
              rw [← List.singleton_append, spanEvs_append, spanEvs_append, spanEvs_append, hnew, spanEvs_close_other _ _ hi]
              simp
            cases hr : (next n hs r (some i)).res with
            | ok => intro hp; simp only at hp ⊢; rw [key]; exact hboth _ _ _ (by simp [hr]) hp
            | err e => intro hp; simp only at hp ⊢; rw [key]; exact hboth _ _ _ (by simp [hr]) hp
            | panic => intro hp; simp [hr] at hp
            | stuck => exact absurd hr (next_basic n hs r (some i) hlen).1
        · cases hr : (next n hs r c).res with
          | ok => intro hp; simp only at hp ⊢; rw [spanEvs_append]; exact hboth _ _ _ (by simp [hr]) hp
          | err e => intro hp; exact ih hs r c id hlen hnd.2 hp
          | panic => intro hp; simp [hr] at hp
          | stuck => exact absurd hr (next_basic n hs r c hlen).1

/-- **C78** (spans).  Unless a handler panics, every span that is created is ended exactly once, after at most one mark as
error and the tag of the status; for chains with any number of middlewares. -/
theorem C78_spans (hs : List Handler) (r : Resp) (id : Nat) (hnd : (tracers hs).Nodup) (hp : (serve hs r).res ≠ .panic) :
    Closed id (spanEvs id (serve hs r).evs) :=
  next_closed _ hs r none id (Nat.le_refl _) hnd hp

/-- If a handler panics, the span stays open: it is not ended in a deferred function. -/
theorem C78_panic_violated : ∃ (hs : List Handler) (r : Resp) (id : Nat), (tracers hs).Nodup ∧
    spanEvs id (serve hs r).evs = [.new id] :=
  ⟨[.tracing 0 true true ⟨false, false⟩, .plain 1 fun r => (r, .panic)], ⟨200, [], none⟩, 0, by decide, by decide +kernel⟩

/-- **C78** (marks).  The span of a middleware is marked as error iff the rest of the chain returned an error, the context
has one, or the status is 400 or more; the texts are given only with the options for it. -/
theorem C78_marks (id : Nat) (o : Options) (hs : List Handler) (r : Resp) (hid : id ∉ tracers hs)
    (x : Ret) (hx : x = next hs.length hs r (some id)) (hp : x.res ≠ .panic) :
    ∃ marks, spanEvs id (serve (.tracing id true true o :: hs) r).evs =
        .new id :: (marks ++ [.tagStatus id x.resp.status, .fin id]) ∧
      (marks = [] ↔ (∀ e, x.res ≠ .err e) ∧ x.resp.ctxErr = none ∧ x.resp.status < 400) ∧
      (∀ e, x.res = .err e → marks = [.error id (if o.logError then some e else none)]) ∧
      (∀ e, x.res = .ok → x.resp.ctxErr = some e → marks = [.error id (if o.logError then some e else none)]) ∧
      (x.res = .ok → x.resp.ctxErr = none → 400 ≤ x.resp.status →
        marks = [.error id (if o.log4xxBody then some x.resp.body else none)]) := by
  have hlen : hs.length ≤ hs.length := Nat.le_refl _
  have hb := next_basic hs.length hs r (some id) hlen
  have h1 := next_other hs.length hs r (some id) id hlen hid
  have h2 := next_other hs.length (next hs.length hs r (some id)).rest (next hs.length hs r (some id)).resp
    (next hs.length hs r (some id)).ctx id (next_rest hlen).1 (by
      intro hm
      obtain ⟨pre, hp⟩ := (next_rest (r := r) (c := some id) hlen).2
      refine hid ?_
      rw [← hp, tracers_append]; exact List.mem_append_right _ hm)
  rw [← hx] at hb h1 h2
  have hnew : spanEvs id [Ev.new id] = [Ev.new id] := by simp [spanEvs]
  have key : ∀ e, spanEvs id (Ev.new id :: x.evs ++ close id o x.resp e ++ (next hs.length x.rest x.resp x.ctx).evs) =
      Ev.new id :: close id o x.resp e := by
    intro e
    rw [← List.singleton_append, spanEvs_append, spanEvs_append, spanEvs_append, hnew, h1, spanEvs_close, h2]
    simp
  have hserve : spanEvs id (serve (.tracing id true true o :: hs) r).evs =
      Ev.new id :: close id o x.resp (match x.res with | .err e => some e | _ => none) := by
    simp only [serve, List.length_cons, next, Bool.and_self, if_true, ← hx]
    cases hr : x.res with
    | ok => simp only; rw [key]
    | err e => simp only; rw [key]
    | panic => exact absurd hr hp
    | stuck => exact absurd hr hb.1
  rw [hserve]
  cases hr : x.res with
  | err e => exact ⟨[.error id (if o.logError then some e else none)], by simp [close], by simp, by simp, by simp, by simp⟩
  | ok =>
    cases hc : x.resp.ctxErr with
    | some t => exact ⟨[.error id (if o.logError then some t else none)], by simp [close, hc], by simp, by simp, by simp, by simp⟩
    | none =>
      by_cases hst : 400 ≤ x.resp.status
      · exact ⟨[.error id (if o.log4xxBody then some x.resp.body else none)], by simp [close, hc, hst], by simp; omega, by simp,
          by simp, by simp⟩
      · exact ⟨[], by simp [close, hc, hst], by simp; omega, by simp, by simp, by simp [hst]⟩
  | panic => exact absurd hr hp
  | stuck => exact absurd hr hb.1

example : (serve [.tracing 0 true true ⟨true, false⟩, refuse] ⟨200, [], none⟩).evs =
    [.new 0, .run 1 (some 0), .error 0 (some (ascii "unauthorized")), .tagStatus 0 401, .fin 0] := by decide +kernel

/-! ## C79 -/

theorem quickJoinLoop_spec (sep : UInt8) : ∀ (l : List Bytes) (n i : Nat) (sb : Bytes), n = i + l.length →
    quickJoinLoop n sep i sb l = sb ++ join sep l := by
  intro l
  induction l with
  | nil => intro n i sb _; simp [quickJoinLoop, join]
  | cons s l ih =>
    intro n i sb hn
    simp only [List.length_cons] at hn
    cases l with
    | nil =>
      simp only [List.length_nil] at hn
      have : ¬ (i : Int) < (n : Int) - 1 := by omega
      simp [quickJoinLoop, this, join]
    | cons t l =>
      simp only [List.length_cons] at hn ih
      have : (i : Int) < (n : Int) - 1 := by omega
      rw [quickJoinLoop]
      simp only [this, if_true]
      rw [ih n (i + 1) _ (by omega), join_cons sep s (ws := t :: l) (by simp)]
      simp

/-- **C79** (names).  The operation name of a pipeline is the names of the commands joined by '|'. -/
theorem C79_names (create : Bytes → Bytes → Bool) (o : HookOptions) (cmds : List Cmd) (op : Bytes) (l : List Call)
    (h : beforeProcessPipeline create o cmds = .span op l) :
    op = join 124 (cmds.map (·.name)) ∧
    ∀ v, Call.tag (ascii "db.statement") v ∈ l ↔ v = join 124 (cmds.map (if o.reportArgs then (·.text) else (·.name))) := by
  have hq : ∀ l : List Bytes, quickJoin l 124 = join 124 l := fun l => by
    unfold quickJoin; rw [quickJoinLoop_spec 124 l _ 0 [] (by simp)]; rfl
  simp only [beforeProcessPipeline, before, hq] at h
  split at h
  · simp at h
  · simp only [HookRes.span.injEq] at h
    obtain ⟨h1, h2⟩ := h
    refine ⟨h1.symm, fun v => ?_⟩
    rw [← h2]
    have e1 : ascii "db.statement" ≠ ascii "db.instance" := by decide +kernel
    have e2 : ascii "db.statement" ≠ ascii "db.type" := by decide +kernel
    cases o.reportArgs <;> simp [e1, e2]

/-- The texts of the errors. -/
def errTexts (cmds : List Cmd) : List Bytes := cmds.filterMap (·.err)

theorem quickJoinError_loop (sep : UInt8) : ∀ (cmds : List Cmd) (sb : Bytes), sb ≠ [] →
    cmds.foldl (fun sb obj => match obj.err with
      | none => sb
      | some e => (if sb.length > 0 then sb ++ [sep] else sb) ++ e) sb = join sep (sb :: errTexts cmds) := by
  intro cmds
  induction cmds with
  | nil => intro sb _; rfl
  | cons c cmds ih =>
    intro sb hsb
    rw [List.foldl_cons]
    cases he : c.err with
    | none => simp only; rw [ih sb hsb]; simp [errTexts, he]
    | some e =>
      have : sb.length > 0 := List.length_pos_iff.2 hsb
      simp only [this, if_true]
      rw [ih _ (by simp)]
      have het : errTexts (c :: cmds) = e :: errTexts cmds := by simp [errTexts, he]
      rw [het, join_cons sep sb (by simp)]
      by_cases h0 : errTexts cmds = []
      · rw [h0]; simp [join]
      · rw [join_cons _ _ h0, join_cons _ _ h0]; simp

/-- What the error text is: errors with an empty text at the beginning are left out. -/
theorem quickJoinError_eq (sep : UInt8) (cmds : List Cmd) :
    quickJoinError cmds sep = join sep ((errTexts cmds).dropWhile (· = [])) := by
  unfold quickJoinError
  induction cmds with
  | nil => rfl
  | cons c cmds ih =>
    rw [List.foldl_cons]
    cases he : c.err with
    | none =>
      have : errTexts (c :: cmds) = errTexts cmds := by simp [errTexts, he]
      rw [this]; exact ih
    | some e =>
      have het : errTexts (c :: cmds) = e :: errTexts cmds := by simp [errTexts, he]
      rw [het]
      by_cases h0 : e = []
      · subst h0
        simp only [List.length_nil, gt_iff_lt, Nat.lt_irrefl, if_false, List.append_nil]
        rw [List.dropWhile_cons_of_pos (by simp)]
        exact ih
      · have := quickJoinError_loop sep cmds e h0
        simp only [List.length_nil, gt_iff_lt, Nat.lt_irrefl, if_false, List.nil_append] at this ⊢
        refine Eq.trans this ?_
        rw [List.dropWhile_cons_of_neg (by simp [h0])]

theorem join_nil_iff (sep : UInt8) (l : List Bytes) : join sep l = [] ↔ l = [] ∨ l = [[]] := by
  match l with
  | [] => simp [join]
  | [w] => simp [join]
  | w :: v :: l => simp [join]

/-- The full statement about errors. -/
def C79Claim : Prop := ∀ (o : HookOptions) (l : List Call) (cmds : List Cmd),
  quickJoinError cmds 124 = join 124 (errTexts cmds) ∧
  (afterProcessPipeline o (some l) cmds = some (l ++ [.fin]) ↔ ∀ c ∈ cmds, c.err = none)

/-- **C79** does not hold: a pipeline in which commands fail with empty texts only is not marked. -/
theorem C79_violated : ¬ C79Claim := by
  intro h
  have := (h ⟨[], [], false, false⟩ [] [⟨ascii "get", ascii "get", some []⟩]).2.1 (by decide +kernel) ⟨ascii "get", ascii "get", some []⟩
    (by simp)
  simp at this

/-- **C79**, what holds: if the texts of errors are not empty, the error text is these joined by '|', and the span is marked
iff some command failed. -/
theorem C79_partial (o : HookOptions) (l : List Call) (cmds : List Cmd) (hne : ∀ c ∈ cmds, c.err ≠ some []) :
    quickJoinError cmds 124 = join 124 (errTexts cmds) ∧
    ((∀ c ∈ cmds, c.err = none) → afterProcessPipeline o (some l) cmds = some (l ++ [.fin])) ∧
    ((∃ c ∈ cmds, c.err ≠ none) → afterProcessPipeline o (some l) cmds =
      some (l ++ [.error (if o.logError then some (join 124 (errTexts cmds)) else none)] ++ [.fin])) := by
  have hq : quickJoinError cmds 124 = join 124 (errTexts cmds) := by
    rw [quickJoinError_eq]
    cases hl : errTexts cmds with
    | nil => rfl
    | cons e es =>
      have he : e ∈ errTexts cmds := by rw [hl]; simp
      obtain ⟨c, hc, hce⟩ := List.mem_filterMap.1 he
      have : e ≠ [] := by rintro rfl; exact hne c hc hce
      rw [List.dropWhile_cons_of_neg (by simp [this])]
  refine ⟨hq, fun h => ?_, fun h => ?_⟩
  · have : errTexts cmds = [] := by
      unfold errTexts
      rw [List.filterMap_eq_nil_iff]; exact h
    simp [afterProcessPipeline, hq, this, join]
  · have : join 124 (errTexts cmds) ≠ [] := by
      rw [Ne, join_nil_iff, not_or]
      obtain ⟨c, hc, he⟩ := h
      obtain ⟨e, he⟩ := Option.ne_none_iff_exists'.1 he
      have hm : e ∈ errTexts cmds := List.mem_filterMap.2 ⟨c, hc, he⟩
      constructor
      · intro h0; rw [h0] at hm; simp at hm
      · intro h0
        rw [h0] at hm
        simp at hm
        subst hm
        exact hne c hc he
    simp [afterProcessPipeline, hq, this]

example : quickJoinError [⟨[], [], some (ascii "a")⟩, ⟨[], [], none⟩, ⟨[], [], some (ascii "b")⟩] 124 = ascii "a|b" := by
  decide +kernel

/-! ## C80 -/

/-- How often a span is ended and marked as error. -/
def ends (l : List Call) : Nat := l.countP (· = .fin)
def errors (l : List Call) : Nat := l.countP fun
  | .error _ => true
  | _ => false

/-- **C80** (client).  Without tracer, or if no span could be created, nothing is done; else the span is ended once, at
last, and marked once iff the call failed. -/
theorem C80_client (tracer : Bool) (create : Bytes → Bytes → Bool) (opts : Options) (req : Request) :
    (∀ status body, endSpan opts none status body = none) ∧ (∀ e, endSpanError opts none e = none) ∧
    (tracer = false → createSpan tracer create req = ⟨none, false⟩) ∧
    (tracer = true → create (req.method ++ 58 :: req.path) req.host = false → createSpan tracer create req = ⟨none, true⟩) ∧
    (tracer = true → create (req.method ++ 58 :: req.path) req.host = true →
      ∃ l, createSpan tracer create req = ⟨some l, false⟩ ∧ ends l = 0 ∧ errors l = 0 ∧
        Call.tag (ascii "http.method") req.method ∈ l ∧ Call.tag (ascii "url") req.uri ∈ l ∧
        (∀ status body, ∃ l', endSpan opts (some l) status body = some (l' ++ [.fin]) ∧ ends l' = 0 ∧
          errors l' = (if 400 ≤ status then 1 else 0) ∧ Call.tag (ascii "status_code") (itoa status) ∈ l' ∧
          ∀ t, Call.error t ∈ l' → t = if opts.log4xxBody then some body else none) ∧
        (∀ e, ∃ l', endSpanError opts (some l) e = some (l' ++ [.fin]) ∧ ends l' = 0 ∧ errors l' = 1 ∧
          Call.error (if opts.logError then some e else none) ∈ l')) := by
  refine ⟨fun _ _ => rfl, fun _ => rfl, fun h => by simp [createSpan, h], fun h1 h2 => by simp [createSpan, operationName, h1, h2],
    fun h1 h2 => ?_⟩
  refine ⟨_, by simp only [createSpan, operationName, h1, h2]; rfl, by rfl, by rfl, by simp, by simp, fun status body => ?_, fun e => ?_⟩
  · simp only [endSpan]
    refine ⟨_, rfl, ?_, ?_, by simp, ?_⟩
    · split <;> simp [ends]
    · by_cases h : 400 ≤ status <;> simp [errors, h]
    · by_cases h : 400 ≤ status <;> simp [h]
  · simp only [endSpanError]
    exact ⟨_, rfl, by simp [ends], by simp [errors], by simp⟩

/-! ## C91 -/

/-- **C91**.  Arguments of commands, texts of errors and bodies of responses are recorded only by option: without it, what is
recorded is the same for other arguments, errors and bodies. -/
theorem C91_private :
    (∀ create o cmd e text, o.reportArgs = false →
      process create o { cmd with text := text } e = process create o cmd e) ∧
    (∀ create o cmd e e', o.logError = false → process create o cmd (some e) = process create o cmd (some e')) ∧
    (∀ create o (cmds cmds' : List (Cmd × Option Bytes)), o.reportArgs = false →
      cmds.map (·.1.name) = cmds'.map (·.1.name) → cmds.map (·.2) = cmds'.map (·.2) →
      processPipeline create o cmds = processPipeline create o cmds') ∧
    (∀ create o (cmds cmds' : List (Cmd × Option Bytes)), o.logError = false → (∀ x ∈ cmds ++ cmds', x.2 ≠ some []) →
      cmds.map (·.1) = cmds'.map (·.1) → cmds.map (·.2.isSome) = cmds'.map (·.2.isSome) →
      processPipeline create o cmds = processPipeline create o cmds') ∧
    (∀ opts span status body body', opts.log4xxBody = false → endSpan opts span status body = endSpan opts span status body') ∧
    (∀ opts span e e', opts.logError = false → endSpanError opts span e = endSpanError opts span e') := by
  refine ⟨?_, ?_, ?_, ?_, ?_, ?_⟩
  · intro create o cmd e text h
    simp [process, beforeProcess, afterProcess, h]
  · intro create o cmd e e' h
    simp [process, beforeProcess, afterProcess, h]
  · intro create o cmds cmds' h h1 h2
    have hb : beforeProcessPipeline create o (cmds.map fun x => { x.1 with err := none }) =
        beforeProcessPipeline create o (cmds'.map fun x => { x.1 with err := none }) := by
      simp only [beforeProcessPipeline, List.map_map, Function.comp_def, h1, h]; rfl
    have he : ∀ l : List (Cmd × Option Bytes), errTexts (l.map fun x => { x.1 with err := x.2 }) = (l.map (·.2)).filterMap id := by
      intro l; simp [errTexts, List.filterMap_map, Function.comp_def]
    have hj : quickJoinError (cmds.map fun x => { x.1 with err := x.2 }) 124 =
        quickJoinError (cmds'.map fun x => { x.1 with err := x.2 }) 124 := by
      rw [quickJoinError_eq, quickJoinError_eq, he, he, h2]
    simp only [processPipeline, afterProcessPipeline, hb, hj]
  · intro create o cmds cmds' h hne h1 h2
    have hb : (cmds.map fun x => ({ x.1 with err := none } : Cmd)) = cmds'.map fun x => { x.1 with err := none } := by
      have := congrArg (List.map fun c : Cmd => ({ c with err := none } : Cmd)) h1
      simpa [List.map_map, Function.comp_def] using this
    have hm : ∀ l : List (Cmd × Option Bytes), (∀ x ∈ l, x.2 ≠ some []) → ∀ c ∈ l.map fun x => ({ x.1 with err := x.2 } : Cmd), c.err ≠ some [] := by
      intro l hl c hc
      obtain ⟨x, hx, rfl⟩ := List.mem_map.1 hc
      exact hl x hx
    have hs : ∀ l : List (Cmd × Option Bytes), (∃ c ∈ l.map fun x => ({ x.1 with err := x.2 } : Cmd), c.err ≠ none) ↔ true ∈ l.map (·.2.isSome) := by
      intro l
      simp only [List.mem_map]
      constructor
      · rintro ⟨_, ⟨x, hx, rfl⟩, h⟩; exact ⟨x, hx, Option.isSome_iff_ne_none.2 h⟩
      · rintro ⟨x, hx, h⟩; exact ⟨_, ⟨x, hx, rfl⟩, Option.isSome_iff_ne_none.1 h⟩
    have hp : ∀ l, afterProcessPipeline o (some l) (cmds.map fun x => { x.1 with err := x.2 }) =
        afterProcessPipeline o (some l) (cmds'.map fun x => { x.1 with err := x.2 }) := by
      intro l
      have p := C79_partial o l _ (hm cmds fun x hx => hne x (by simp [hx]))
      have p' := C79_partial o l _ (hm cmds' fun x hx => hne x (by simp [hx]))
      by_cases ht : true ∈ cmds.map (·.2.isSome)
      · rw [p.2.2 ((hs _).2 ht), p'.2.2 ((hs _).2 (h2 ▸ ht)), h]; rfl
      · have ht' := h2 ▸ ht
        rw [← hs] at ht ht'
        rw [p.2.1 (by simpa using ht), p'.2.1 (by simpa using ht')]
    simp only [processPipeline, hb, hp]
  · intro opts span status body body' h
    simp [endSpan, h]
  · intro opts span e e' h
    simp [endSpanError, h]

/-- By option they are recorded. -/
theorem C91_by_option (create : Bytes → Bytes → Bool) (o : HookOptions) (cmd : Cmd) (e : Option Bytes) (op : Bytes) (l : List Call)
    (h : process create o cmd e = .span op l) :
    op = cmd.name ∧ (∀ v, Call.tag (ascii "db.statement") v ∈ l ↔ v = if o.reportArgs then cmd.text else cmd.name) ∧
    Call.tag (ascii "db.instance") o.db ∈ l ∧ Call.tag (ascii "db.type") (ascii "Redis") ∈ l := by
  have e1 : ascii "db.statement" ≠ ascii "db.instance" := by decide +kernel
  have e2 : ascii "db.statement" ≠ ascii "db.type" := by decide +kernel
  simp only [process, beforeProcess, before, afterProcess] at h
  by_cases hc : create cmd.name o.peer = true
  · cases e <;>
    · simp only [hc] at h
      simp only [Bool.not_true, Bool.false_eq_true, if_false, HookRes.span.injEq] at h
      obtain ⟨rfl, rfl⟩ := h
      refine ⟨rfl, fun v => ?_, by simp, by simp⟩
      simp [e1, e2]
  · simp [hc] at h

example : process (fun _ _ => true) ⟨[], [], false, false⟩ ⟨ascii "get", ascii "get secret", none⟩ (some (ascii "x")) =
    .span (ascii "get") [.tag (ascii "db.statement") (ascii "get"), .tag (ascii "db.instance") [], .tag (ascii "db.type") (ascii "Redis"),
      .component 7, .layer (ascii "Cache"), .error none, .fin] := by decide +kernel

/-- The full statement about the hook. -/
def C80Claim : Prop := ∀ (create : Bytes → Bytes → Bool) (o : HookOptions) (cmd : Cmd) (e : Option Bytes),
  process create o cmd e ≠ .panic

/-- **C80** does not hold: if no span can be created, the hook calls methods of nil. -/
theorem C80_violated : ¬ C80Claim ∧ ∀ create o cmd e, create cmd.name o.peer = false → process create o cmd e = .panic := by
  have h : ∀ create o cmd e, create cmd.name o.peer = false → process create o cmd e = .panic := by
    intro create o cmd e h
    simp [process, beforeProcess, before, h]
  exact ⟨fun hc => hc (fun _ _ => false) ⟨[], [], false, false⟩ ⟨[], [], none⟩ none (h _ _ _ _ rfl), h⟩

/-- **C80** (hook), what holds: if the span can be created, it is ended once, at last, and marked once iff the command failed;
without active span nothing is done. -/
theorem C80_partial (create : Bytes → Bytes → Bool) (o : HookOptions) :
    (∀ cmd e, create cmd.name o.peer = true → ∃ l, process create o cmd e = .span cmd.name (l ++ [.fin]) ∧ ends l = 0 ∧
      errors l = (if e = none then 0 else 1) ∧
      (∀ t, e = some t → Call.error (if o.logError then some t else none) ∈ l)) ∧
    (∀ cmds : List (Cmd × Option Bytes), create (join 124 (cmds.map (·.1.name))) o.peer = true →
      (∀ x ∈ cmds, x.2 ≠ some []) →
      ∃ l, processPipeline create o cmds = .span (join 124 (cmds.map (·.1.name))) (l ++ [.fin]) ∧ ends l = 0 ∧
        (errors l = 0 ↔ ∀ x ∈ cmds, x.2 = none) ∧ errors l ≤ 1) ∧
    (∀ cmd, afterProcess o none cmd = none) ∧ (∀ cmds, afterProcessPipeline o none cmds = none) := by
  refine ⟨fun cmd e hc => ?_, fun cmds hc hne => ?_, fun _ => rfl, fun _ => rfl⟩
  · simp only [process, beforeProcess, before, hc, afterProcess]
    cases e with
    | none => exact ⟨_, rfl, by simp [ends], by simp [errors], by simp⟩
    | some t => exact ⟨_, rfl, by simp [ends], by simp [errors], by simp⟩
  · have hq : ∀ l : List Bytes, quickJoin l 124 = join 124 l := fun l => by
      unfold quickJoin; rw [quickJoinLoop_spec 124 l _ 0 [] (by simp)]; rfl
    have hnames : (cmds.map fun x => { x.1 with err := none }).map (·.name) = cmds.map (·.1.name) := by simp
    simp only [processPipeline, beforeProcessPipeline, before, hq, hnames, hc, Bool.not_true, Bool.false_eq_true, if_false]
    generalize hl : [Call.tag (ascii "db.statement") _, Call.tag (ascii "db.instance") o.db,
      Call.tag (ascii "db.type") (ascii "Redis"), Call.component 7, Call.layer (ascii "Cache")] = l
    have hl0 : ends l = 0 ∧ errors l = 0 := by subst hl; exact ⟨by simp [ends], by simp [errors]⟩
    obtain ⟨-, p1, p2⟩ := C79_partial o l (cmds.map fun x => { x.1 with err := x.2 }) (by
      intro c hc
      obtain ⟨x, hx, rfl⟩ := List.mem_map.1 hc
      exact hne x hx)
    by_cases hall : ∀ x ∈ cmds, x.2 = none
    · rw [p1 (by
        intro c hc
        obtain ⟨x, hx, rfl⟩ := List.mem_map.1 hc
        exact hall x hx)]
      exact ⟨l, rfl, hl0.1, by simp only [hl0.2, true_iff]; exact hall, by omega⟩
    · have hex : ∃ x ∈ cmds, x.2 ≠ none := by
        apply Classical.byContradiction
        intro hn
        exact hall fun x hx => Classical.byContradiction fun h => hn ⟨x, hx, h⟩
      obtain ⟨x, hx, hxe⟩ := hex
      rw [p2 ⟨{ x.1 with err := x.2 }, List.mem_map.2 ⟨x, hx, rfl⟩, hxe⟩]
      refine ⟨_, rfl, ?_, ?_, ?_⟩
      · simp only [ends, List.countP_append] at hl0 ⊢
        rw [hl0.1]; rfl
      · simp only [errors, List.countP_append] at hl0 ⊢
        rw [hl0.2]
        simp only [List.countP_singleton, if_true]
        constructor
        · intro h; omega
        · intro h; exact absurd h hall
      · simp only [errors, List.countP_append] at hl0 ⊢
        rw [hl0.2]
        simp

example : process (fun op peer => op ≠ [] && peer ≠ []) ⟨ascii "p", ascii "0", true, false⟩ ⟨ascii "get", ascii "get k", none⟩
    (some (ascii "nil")) = .span (ascii "get") [.tag (ascii "db.statement") (ascii "get"), .tag (ascii "db.instance") (ascii "0"),
      .tag (ascii "db.type") (ascii "Redis"), .component 7, .layer (ascii "Cache"), .error (some (ascii "nil")), .fin] := by
  decide +kernel

end Gears.Skywalking
