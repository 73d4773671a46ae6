import Verif.CircuitBreaker.Props

/-
C123: how many tasks a breaker lets through while all of them fail (/repo/circuitbreaker/circuitbreaker.go:75-119).
-/

namespace Gears.CircuitBreaker

/-! ### Specification -/

/-- The clock readings of a schedule. -/
def Action.reading : Action → Option Int
  | .call now => some now
  | .record _ now => some now
  | _ => none

/-- The clock does not go back. -/
def Forward (as : List Action) : Prop := (as.filterMap Action.reading).Pairwise (· ≤ ·)

/-- The tasks started with a clock reading from `x` on and before `y`. -/
def startsIn (x y : Int) (log : List Ev) : List Ev :=
  log.filter fun | .start _ n => decide (x ≤ n ∧ n < y) | _ => false

/-- At no moment more than `n` tasks are in progress. -/
def AtMost (n : Nat) (log : List Ev) : Prop :=
  ∀ p, p <+: log → ∀ ks : List Nat, ks.Nodup → (∀ k ∈ ks, InFlight p k) → ks.length ≤ n

/-- Nothing succeeds. -/
def Outage (log : List Ev) : Prop := ∀ e ∈ log, e.isRecOk = false

/-- Nothing panics. -/
def NoPanic (log : List Ev) : Prop := ∀ k, Ev.finish k .panic ∉ log

/-- The full statement of C123: from any moment on, while nothing succeeds and at most `n` tasks are in progress at once, at most
`th - 1 + k n` tasks are started within `k` reset timeouts. -/
def C123Claim : Prop := ∀ (th to : Int) (as : List Action) (s : State) (n k : Nat) (l0 l1 : List Ev) (x : Int), 1 ≤ th → 0 ≤ to →
  exec step (init th to) as = some s → Forward as → s.log = l0 ++ l1 → Outage l1 → AtMost n s.log →
  ((startsIn x (x + k * (to + 1)) l1).length : Int) ≤ th - 1 + k * n

/-! ### Proofs -/

/-- Everything read so far is at most `m`. -/
structure Read (m : Int) (s : State) : Prop where
  pc : ∀ (i : Nat) (now : Int), s.pcs[i]? = some (.deciding now) → now ≤ m
  start : ∀ i now, Ev.start i now ∈ s.log → now ≤ m
  fail : ∀ i now, Ev.recFail i now ∈ s.log → now ≤ m
  order : (s.log.filterMap Ev.failTs).Pairwise (· ≤ ·)
  own : ∀ i n t, Ev.start i n ∈ s.log → Ev.recFail i t ∈ s.log → n ≤ t
  before : s.log.Pairwise fun a b => ∀ j n i t, a = .start j n → b = .recFail i t → n ≤ t

theorem Read.mono {m m' : Int} {s : State} (h : Read m s) (hm : m ≤ m') : Read m' s :=
  ⟨fun i n hn => by have := h.pc i n hn; omega, fun i n hn => by have := h.start i n hn; omega,
    fun i n hn => by have := h.fail i n hn; omega, h.order, h.own, h.before⟩

theorem not_mem_trace {i : Nat} {log : List Ev} (h : trace i log = []) (e : Ev) (he : e.of = i) : e ∉ log := fun hm => by
  have : e ∈ trace i log := List.mem_filter.2 ⟨hm, by simpa using he⟩
  rw [h] at this
  simp at this

theorem failTs_eq {e : Ev} {t : Int} (h : e.failTs = some t) : ∃ k, e = .recFail k t := by
  cases e with
  | recFail k t' => simp [Ev.failTs] at h; exact ⟨k, by rw [h]⟩
  | _ => simp [Ev.failTs] at h

theorem read_upd {m : Int} {s : State} (h : Read m s) (b : Breaker) (i : Nat) (p : PC) (e : Ev) (hp : ∀ n, p ≠ .deciding n)
    (h1 : ∀ j n, e = .start j n → n ≤ m ∧ trace j s.log = []) (h2 : ∀ j t, e = .recFail j t → t = m) : Read m (s.upd b i p [e]) where
  pc := by
    intro j n hj
    simp only [State.upd] at hj
    rw [List.getElem?_set] at hj
    split at hj
    · split at hj
      · simp at hj; exact absurd hj (hp n)
      · simp at hj
    · exact h.pc j n hj
  start := by
    intro j n hj
    simp only [State.upd, List.mem_append, List.mem_singleton] at hj
    rcases hj with hj | hj
    · exact h.start j n hj
    · exact (h1 j n hj.symm).1
  fail := by
    intro j n hj
    simp only [State.upd, List.mem_append, List.mem_singleton] at hj
    rcases hj with hj | hj
    · exact h.fail j n hj
    · exact Int.le_of_eq (h2 j n hj.symm)
  order := by
    simp only [State.upd]
    rw [List.filterMap_append, List.pairwise_append]
    refine ⟨h.order, ?_, ?_⟩
    · cases he : e.failTs <;> simp [he]
    · intro a ha b hb
      rw [List.mem_filterMap] at ha
      obtain ⟨e', he', ha⟩ := ha
      have hb : e.failTs = some b := by
        rw [List.mem_filterMap] at hb
        obtain ⟨e'', h3, h4⟩ := hb
        simp at h3; subst h3; exact h4
      obtain ⟨k, rfl⟩ := failTs_eq ha
      obtain ⟨k', rfl⟩ := failTs_eq hb
      have := h.fail _ _ he'
      rw [h2 _ _ rfl]
      exact this
  own := by
    intro j n t hs hr
    simp only [State.upd, List.mem_append, List.mem_singleton] at hs hr
    rcases hs with hs | hs
    · rcases hr with hr | hr
      · exact h.own j n t hs hr
      · rw [h2 j t hr.symm]; exact h.start j n hs
    · rcases hr with hr | hr
      · exact absurd hr (not_mem_trace (h1 j n hs.symm).2 _ rfl)
      · rw [← hs] at hr; simp at hr
  before := by
    simp only [State.upd]
    rw [List.pairwise_append]
    refine ⟨h.before, by simp, ?_⟩
    intro a ha b hb j n i t h3 h4
    simp at hb; subst hb; subst h3
    rw [h2 i t h4]
    exact h.start j n ha

theorem read_step {th to m : Int} {s s' : State} {a : Action} (inv : Inv th to s) (h : Read m s) (hs : step s a = some s')
    (ha : ∀ r, a.reading = some r → m ≤ r) : Read (a.reading.getD m) s' := by
  cases a with
  | call now =>
    have hm := ha now rfl
    simp [step] at hs; subst hs
    simp only [Action.reading, Option.getD_some]
    refine ⟨?_, (h.mono hm).start, (h.mono hm).fail, h.order, h.own, h.before⟩
    intro i n hi
    simp only at hi
    rw [List.getElem?_append] at hi
    split at hi
    · exact (h.mono hm).pc i n hi
    · rcases hk : i - s.pcs.length with _ | k <;> simp [hk] at hi
      omega
  | decide i =>
    simp only [step] at hs
    split at hs
    · rename_i now hp
      have htr : trace i s.log = [] := inv.course i _ hp
      split at hs
      · simp at hs; subst hs
        exact read_upd h _ _ _ _ (by simp) (by simp) (by simp)
      all_goals
        simp at hs; subst hs
        refine read_upd h _ _ _ _ (by simp) ?_ (by simp)
        intro j n e
        simp at e
        obtain ⟨rfl, rfl⟩ := e
        exact ⟨h.pc _ _ hp, htr⟩
    · simp at hs
  | openCb i =>
    simp only [step] at hs
    split at hs
    · simp at hs; subst hs
      exact read_upd h _ _ _ _ (by simp) (by simp) (by simp)
    · simp at hs
  | taskEnd i o =>
    simp only [step] at hs
    split at hs
    · split at hs
      all_goals
        simp at hs; subst hs
        exact read_upd h _ _ _ _ (by simp) (by simp) (by simp)
    · simp at hs
  | record i now =>
    have hm := ha now rfl
    simp only [step] at hs
    split at hs
    · simp at hs; subst hs
      exact read_upd (h.mono hm) _ _ _ _ (by simp) (by simp) (by simp)
    · simp at hs
  | errCb i =>
    simp only [step] at hs
    split at hs
    · simp at hs; subst hs
      exact read_upd h _ _ _ _ (by simp) (by simp) (by simp)
    · simp at hs
  | reset i =>
    simp only [step] at hs
    split at hs
    · simp at hs; subst hs
      exact read_upd h _ _ _ _ (by simp) (by simp) (by simp)
    · simp at hs

theorem read_exec {th to : Int} : ∀ (as : List Action) (s s' : State) (m : Int), Inv th to s → Read m s → (∀ r ∈ as.filterMap Action.reading, m ≤ r) →
    Forward as → exec step s as = some s' → ∃ m', Read m' s'
  | [], s, s', m, _, h, _, _, hs => by
    simp [exec] at hs; subst hs; exact ⟨m, h⟩
  | a :: as, s, s', m, inv, h, hm, hf, hs => by
    simp only [exec] at hs
    split at hs
    · rename_i s1 h1
      have hr := read_step inv h h1 fun r hr => hm r (by rw [List.mem_filterMap]; exact ⟨a, by simp, hr⟩)
      have inv1 := step_inv s a s1 inv h1
      unfold Forward at hf
      cases ha : a.reading with
      | none =>
        rw [ha] at hr
        rw [List.filterMap_cons, ha] at hf hm
        exact read_exec as s1 s' m inv1 hr hm hf hs
      | some r =>
        rw [ha] at hr
        rw [List.filterMap_cons, ha] at hf hm
        exact read_exec as s1 s' r inv1 hr (List.pairwise_cons.1 hf).1 (List.pairwise_cons.1 hf).2 hs
    · simp at hs

theorem read_init {th to : Int} {as : List Action} {s : State} (hs : exec step (init th to) as = some s) (hf : Forward as) : ∃ m, Read m s := by
  cases hr : as.filterMap Action.reading with
  | nil =>
    exact read_exec as _ s 0 (init_inv th to) ⟨by simp [init], by simp [init], by simp [init], by simp [init], by simp [init], by simp [init]⟩ (by rw [hr]; simp) hf hs
  | cons m l =>
    have hf' := hf
    unfold Forward at hf'
    rw [hr] at hf'
    refine read_exec as _ s m (init_inv th to) ⟨by simp [init], by simp [init], by simp [init], by simp [init], by simp [init], by simp [init]⟩ ?_ hf hs
    rw [hr]
    intro r h
    rcases List.mem_cons.1 h with rfl | h
    · exact Int.le_refl _
    · exact (List.pairwise_cons.1 hf').1 r h

/-- A call starts once. -/
theorem start_once {th to : Int} {s : State} (h : Reachable step (init th to) s) (j : Nat) : (trace j s.log).countP Ev.isStart ≤ 1 := by
  obtain ⟨full, hfull, hpre⟩ := (C24_callbacks th to s h j).1
  refine Nat.le_trans (hpre.sublist.countP_le) ?_
  cases hfull <;> simp [Ev.isStart, List.countP_cons]

/-- Nothing is recorded before the start. -/
theorem start_first {th to : Int} {s : State} (h : Reachable step (init th to) s) {l0 l1 : List Ev} (hl : s.log = l0 ++ l1) {j : Nat} {n : Int}
    (hs : Ev.start j n ∈ l1) : trace j l0 = [] := by
  obtain ⟨full, hfull, hpre⟩ := (C24_callbacks th to s h j).1
  have hone := start_once h j
  have htr : trace j s.log = trace j l0 ++ trace j l1 := by rw [hl]; unfold trace; rw [List.filter_append]
  have hm : Ev.start j n ∈ trace j l1 := List.mem_filter.2 ⟨hs, by simp [Ev.of]⟩
  have hc : 0 < (trace j l1).countP Ev.isStart := List.countP_pos_iff.2 ⟨_, hm, rfl⟩
  cases h0 : trace j l0 with
  | nil => rfl
  | cons a b =>
    exfalso
    rw [htr, List.countP_append, h0, List.countP_cons] at hone
    have ha : a.isStart = false := by
      cases hb : a.isStart with
      | false => rfl
      | true => rw [hb] at hone; simp at hone; omega
    have hhd : full.head? = some a := by
      obtain ⟨tl, htl⟩ := hpre
      rw [htr, h0] at htl
      rw [← htl]; rfl
    have hmf : Ev.start j n ∈ full := hpre.subset (by rw [htr]; simp [hm])
    cases hfull with
    | refused m => simp at hmf
    | succeeded m => simp at hhd; rw [← hhd] at ha; simp [Ev.isStart] at ha
    | failed m e t => simp at hhd; rw [← hhd] at ha; simp [Ev.isStart] at ha
    | panicked m => simp at hhd; rw [← hhd] at ha; simp [Ev.isStart] at ha

/-- The first failure recorded from `x` on. -/
theorem first_late (x : Int) : ∀ (l : List Ev), (∀ k t, Ev.recFail k t ∈ l → t < x) ∨
    ∃ p k t c, l = p ++ .recFail k t :: c ∧ x ≤ t ∧ ∀ k t, Ev.recFail k t ∈ p → t < x
  | [] => .inl (by simp)
  | e :: l => by
    have hcases : (∀ k t, e = .recFail k t → t < x) ∨ ∃ k t, e = .recFail k t ∧ x ≤ t := by
      cases e with
      | recFail k t =>
        by_cases h : x ≤ t
        · exact .inr ⟨k, t, rfl, h⟩
        · exact .inl fun k' t' e => by simp at e; omega
      | _ => exact .inl (by simp)
    rcases hcases with he | ⟨k, t, rfl, h⟩
    · rcases first_late x l with h | ⟨p, k, t, c, rfl, h1, h2⟩
      · exact .inl fun k t hm => by
          rcases List.mem_cons.1 hm with hm | hm
          · exact he k t hm.symm
          · exact h k t hm
      · refine .inr ⟨e :: p, k, t, c, rfl, h1, fun k t hm => ?_⟩
        rcases List.mem_cons.1 hm with hm | hm
        · exact he k t hm.symm
        · exact h2 k t hm
    · exact .inr ⟨[], k, t, l, rfl, h, by simp⟩

/-- While open: after a failure recorded at `t`, nothing is started before `t + to + 1`. -/
theorem late_start {th to m : Int} {s : State} (h : Reachable step (init th to) s) (hr : Read m s) {l0 p a b : List Ev} {k j : Nat} {t n : Int}
    (hl : s.log = l0 ++ (p ++ .recFail k t :: (a ++ .start j n :: b))) (ho : Outage (p ++ .recFail k t :: a))
    (hopen : th ≤ (failuresSince l0).length + (p.filterMap Ev.failTs).length + 1) : t + to < n := by
  have hdec := (C25_concurrent_decisions th to s h (l0 ++ (p ++ .recFail k t :: a)) b j n).2 (by rw [hl]; simp)
  refine Decidable.byContradiction fun hc => hdec ?_
  have hfs := failuresSince_append l0 (p ++ .recFail k t :: a) ho
  unfold MustRefuse
  rw [hfs]
  have e1 : (p ++ Ev.recFail k t :: a).filterMap Ev.failTs = p.filterMap Ev.failTs ++ t :: a.filterMap Ev.failTs := by
    simp [List.filterMap_append, Ev.failTs]
  rw [List.filterMap_reverse, e1]
  refine ⟨by simp only [List.length_append, List.length_reverse, List.length_cons]; push_cast; omega, ?_⟩
  -- the last failure is not before t
  have hord := hr.order
  rw [hl] at hord
  have hsplit : (l0 ++ (p ++ .recFail k t :: (a ++ .start j n :: b))).filterMap Ev.failTs =
      (l0 ++ p).filterMap Ev.failTs ++ (t :: (a.filterMap Ev.failTs ++ b.filterMap Ev.failTs)) := by
    simp [List.filterMap_append, List.filterMap_cons, Ev.failTs]
  rw [hsplit, List.pairwise_append] at hord
  have h3 := (List.pairwise_cons.1 hord.2.1).1
  have hlast : t ≤ ((p.filterMap Ev.failTs ++ t :: a.filterMap Ev.failTs).reverse ++ failuresSince l0).head?.getD 0 := by
    rw [List.reverse_append, List.reverse_cons]
    rcases List.eq_nil_or_concat (a.filterMap Ev.failTs) with h0 | ⟨a', z, h0⟩
    · rw [h0]; simp
    · rw [h0]
      have := h3 z (by rw [h0]; simp)
      simpa using this
  omega

/-- **C123**, while open: of the tasks started within one reset timeout, all are in progress at one moment. -/
theorem C123_window (th to : Int) (as : List Action) (s : State) (hs : exec step (init th to) as = some s) (hf : Forward as)
    (l0 l1 : List Ev) (hl : s.log = l0 ++ l1) (ho : Outage l1) (hp : NoPanic l1) (hopen : th ≤ (failuresSince l0).length) (x : Int) :
    ∃ p q, l1 = p ++ q ∧ ∀ j n, Ev.start j n ∈ l1 → x ≤ n → n ≤ x + to → InFlight (l0 ++ p) j := by
  have hreach : Reachable step (init th to) s := ⟨as, hs⟩
  obtain ⟨m, hr⟩ := read_init hs hf
  -- it is enough that the starts are before the first late failure
  have key : ∀ p q, l1 = p ++ q → (∀ k t, Ev.recFail k t ∈ p → t < x) → ∀ j n, Ev.start j n ∈ l1 → x ≤ n → Ev.start j n ∈ p → InFlight (l0 ++ p) j := by
    rintro p q rfl hp' j n hj hx hin
    have hfresh := start_first hreach hl hj
    have hno : ∀ e, e.of = j → e ∉ l0 := fun e he => not_mem_trace hfresh e he
    refine ⟨⟨n, by simp [hin]⟩, fun t ht => ?_, fun ht => ?_, fun ht => ?_⟩
    · rcases List.mem_append.1 ht with ht | ht
      · exact hno _ rfl ht
      · have h1 := hp' j t ht
        have h2 := hr.own j n t (by rw [hl]; simp [hin]) (by rw [hl]; simp [ht])
        omega
    · rcases List.mem_append.1 ht with ht | ht
      · exact hno _ rfl ht
      · have := ho _ (List.mem_append_left q ht)
        simp [Ev.isRecOk] at this
    · rcases List.mem_append.1 ht with ht | ht
      · exact hno _ rfl ht
      · exact hp _ (List.mem_append_left q ht)
  rcases first_late x l1 with h | ⟨p, k, t, c, e, ht, hp'⟩
  · exact ⟨l1, [], by simp, fun j n hj h1 _ => key l1 [] (by simp) h j n hj h1 hj⟩
  · refine ⟨p, .recFail k t :: c, e, fun j n hj h1 h2 => key p _ e hp' j n hj h1 ?_⟩
    have hj' := hj
    rw [e, List.mem_append] at hj'
    rcases hj' with hj' | hj'
    · exact hj'
    · exfalso
      rw [List.mem_cons] at hj'
      rcases hj' with hj' | hj'
      · simp at hj'
      obtain ⟨a, b, rfl⟩ := List.append_of_mem hj'
      have := late_start hreach hr (by rw [hl, e]) (fun e' he' => ho e' (by
        rw [e]
        simp at he' ⊢
        rcases he' with he' | he' | he'
        · exact .inl he'
        · exact .inr (.inl he')
        · exact .inr (.inr (.inl he')))) (by omega)
      omega

theorem starts_nodup {th to : Int} {s : State} (h : Reachable step (init th to) s) : ((s.log.filter Ev.isStart).map Ev.of).Nodup := by
  rw [List.nodup_iff_count]
  intro j
  refine Nat.le_trans (Nat.le_of_eq ?_) (start_once h j)
  rw [List.count_eq_countP, List.countP_map, List.countP_filter]
  unfold trace
  rw [List.countP_filter]
  apply List.countP_congr
  intro e _
  simp [Bool.and_comm]

theorem startsIn_mem {x y : Int} {l : List Ev} {e : Ev} (h : e ∈ startsIn x y l) : ∃ j n, e = .start j n ∧ Ev.start j n ∈ l ∧ x ≤ n ∧ n < y := by
  unfold startsIn at h
  rw [List.mem_filter] at h
  obtain ⟨h1, h2⟩ := h
  cases e with
  | start j n => exact ⟨j, n, rfl, h1, by simpa using h2⟩
  | _ => simp at h2

theorem startsIn_sub (x y : Int) (l : List Ev) : List.Sublist (startsIn x y l) (l.filter Ev.isStart) := by
  unfold startsIn
  induction l with
  | nil => simp
  | cons e l ih =>
    rw [List.filter_cons, List.filter_cons]
    cases e with
    | start j n =>
      simp only [Ev.isStart, if_true]
      split
      · exact ih.cons_cons _
      · exact ih.cons _
    | _ => simpa [Ev.isStart] using ih

theorem starts_sub {th to : Int} {s : State} (h : Reachable step (init th to) s) {l0 l1 l2 : List Ev} (hl : s.log = l0 ++ (l1 ++ l2)) {l : List Ev}
    (hs : List.Sublist l (l1.filter Ev.isStart)) : (l.map Ev.of).Nodup := by
  refine List.Nodup.sublist (List.Sublist.map _ ?_) (starts_nodup h)
  refine hs.trans ?_
  rw [hl, List.filter_append, List.filter_append]
  exact (List.sublist_append_left _ _).trans (List.sublist_append_right _ _)

/-- **C123**, while open: within one reset timeout at most as many tasks are started as can be in progress at once. -/
theorem C123_count_partial (th to : Int) (as : List Action) (s : State) (hs : exec step (init th to) as = some s) (hf : Forward as) (n : Nat)
    (hn : AtMost n s.log) (l0 l1 : List Ev) (hl : s.log = l0 ++ l1) (ho : Outage l1) (hp : NoPanic l1) (hopen : th ≤ (failuresSince l0).length)
    (x : Int) : (startsIn x (x + to + 1) l1).length ≤ n := by
  obtain ⟨p, q, rfl, h⟩ := C123_window th to as s hs hf l0 l1 hl ho hp hopen x
  rw [← List.length_map (f := Ev.of)]
  refine hn (l0 ++ p) ⟨q, by rw [hl]; simp⟩ _ (starts_sub (l0 := l0) (l2 := []) ⟨as, hs⟩ (by rw [hl]; simp) (startsIn_sub _ _ _)) fun k hk => ?_
  rw [List.mem_map] at hk
  obtain ⟨e, he, rfl⟩ := hk
  obtain ⟨j, m, rfl, h1, h2, h3⟩ := startsIn_mem he
  exact h j m h1 h2 (by omega)

theorem startsIn_split (x y z : Int) (h1 : x ≤ y) (h2 : y ≤ z) (l : List Ev) : (startsIn x z l).length = (startsIn x y l).length + (startsIn y z l).length := by
  unfold startsIn
  induction l with
  | nil => simp
  | cons e l ih =>
    cases e with
    | start j n =>
      simp only [List.filter_cons, decide_eq_true_eq]
      split <;> split <;> split <;> (try simp only [List.length_cons]) <;> omega
    | _ => simpa [List.filter_cons] using ih

theorem startsIn_empty (x y : Int) (l : List Ev) (h : y ≤ x) : startsIn x y l = [] := by
  rw [List.eq_nil_iff_forall_not_mem]
  intro e he
  obtain ⟨j, m, -, -, h1, h2⟩ := startsIn_mem he
  omega

/-- While open, within `k` reset timeouts. -/
theorem open_windows (th to : Int) (hto : 0 ≤ to) (as : List Action) (s : State) (hs : exec step (init th to) as = some s) (hf : Forward as) (n : Nat)
    (hn : AtMost n s.log) (l0 l1 : List Ev) (hl : s.log = l0 ++ l1) (ho : Outage l1) (hp : NoPanic l1) (hopen : th ≤ (failuresSince l0).length)
    (x : Int) : ∀ k : Nat, ((startsIn x (x + k * (to + 1)) l1).length : Int) ≤ k * n
  | 0 => by
    have := startsIn_empty x (x + (0 : Nat) * (to + 1)) l1 (by simp)
    rw [this]; simp
  | k + 1 => by
    have ih := open_windows th to hto as s hs hf n hn l0 l1 hl ho hp hopen x k
    have hw := C123_count_partial th to as s hs hf n hn l0 l1 hl ho hp hopen (x + k * (to + 1))
    have hk : 0 ≤ (k : Int) * (to + 1) := Int.mul_nonneg (by omega) (by omega)
    have e : x + ((k + 1 : Nat) : Int) * (to + 1) = x + k * (to + 1) + to + 1 := by
      push_cast; rw [Int.add_mul]; omega
    rw [e, startsIn_split x (x + k * (to + 1)) _ (by omega) (by omega)]
    have e2 : ((k + 1 : Nat) : Int) * n = k * n + n := by push_cast; rw [Int.add_mul]; omega
    push_cast at *
    omega

/-- The failures recorded in a log. -/
def fails (l : List Ev) : List Ev := l.filter fun e => e.failTs.isSome

theorem nodup_le : ∀ {a b : List Nat}, a.Nodup → (∀ k ∈ a, k ∈ b) → a.length ≤ b.length
  | [], _, _, _ => by simp
  | k :: a, b, h, hs => by
    rw [List.nodup_cons] at h
    have := nodup_le (b := b.erase k) h.2 fun j hj => (List.mem_erase_of_ne (fun e : j = k => h.1 (e ▸ hj))).2 (hs j (by simp [hj]))
    have hk : k ∈ b := hs k (by simp)
    rw [List.length_erase_of_mem hk] at this
    have := List.length_pos_of_mem hk
    simp only [List.length_cons]
    omega

/-- While the breaker is not open: what was started has failed or is in progress. -/
theorem before_open {th to : Int} {s : State} (h : Reachable step (init th to) s) {n : Nat} (hn : AtMost n s.log) {l0 p q : List Ev} (hl : s.log = l0 ++ (p ++ q))
    (ho : Outage p) (hp : NoPanic p) (x y : Int) : (startsIn x y p).length ≤ (fails p).length + n := by
  have hnd := starts_sub (l1 := p) (l2 := q) h hl (startsIn_sub x y p)
  -- those that have failed, and the others
  have hsplit : (startsIn x y p).length = ((startsIn x y p).filter fun e => (fails p).any fun f => f.of = e.of).length +
      ((startsIn x y p).filter fun e => !(fails p).any fun f => f.of = e.of).length := by
    rw [← List.countP_eq_length_filter, ← List.countP_eq_length_filter]
    rw [List.length_eq_countP_add_countP (fun e : Ev => (fails p).any fun f => f.of = e.of)]
    congr 1
    apply List.countP_congr
    intro e _
    simp
  have h1 : ((startsIn x y p).filter fun e => (fails p).any fun f => f.of = e.of).length ≤ (fails p).length := by
    rw [← List.length_map (f := Ev.of), ← List.length_map (as := fails p) (f := Ev.of)]
    refine nodup_le ((List.Sublist.map _ List.filter_sublist).nodup hnd) fun k hk => ?_
    rw [List.mem_map] at hk
    obtain ⟨e, he, rfl⟩ := hk
    have := (List.mem_filter.1 he).2
    rw [List.any_eq_true] at this
    obtain ⟨f, hf, hfe⟩ := this
    exact List.mem_map.2 ⟨f, hf, by simpa using hfe⟩
  have h2 : ((startsIn x y p).filter fun e => !(fails p).any fun f => f.of = e.of).length ≤ n := by
    rw [← List.length_map (f := Ev.of)]
    refine hn (l0 ++ p) ⟨q, by rw [hl]; simp⟩ _ ((List.Sublist.map _ List.filter_sublist).nodup hnd) fun k hk => ?_
    rw [List.mem_map] at hk
    obtain ⟨e, he, rfl⟩ := hk
    obtain ⟨he1, he2⟩ := List.mem_filter.1 he
    obtain ⟨j, m, rfl, hj, -, -⟩ := startsIn_mem he1
    have hfresh := start_first h (l0 := l0) (l1 := p ++ q) hl (j := j) (n := m) (by simp [hj])
    have hno : ∀ e, e.of = j → e ∉ l0 := fun e he => not_mem_trace hfresh e he
    refine ⟨⟨m, by simp [hj, Ev.of]⟩, fun t ht => ?_, fun ht => ?_, fun ht => ?_⟩
    · rcases List.mem_append.1 ht with ht | ht
      · exact hno _ rfl ht
      · simp at he2
        exact he2 _ (List.mem_filter.2 ⟨ht, rfl⟩) rfl
    · rcases List.mem_append.1 ht with ht | ht
      · exact hno _ rfl ht
      · have := ho _ ht
        simp [Ev.isRecOk] at this
    · rcases List.mem_append.1 ht with ht | ht
      · exact hno _ rfl ht
      · exact hp _ ht
  omega

theorem fails_le : ∀ (p l0 : List Ev), Outage p → (failuresSince (l0 ++ p)).length = (failuresSince l0).length + (fails p).length
  | [], l0, _ => by simp [fails]
  | e :: p, l0, h => by
    have e1 : l0 ++ e :: p = (l0 ++ [e]) ++ p := by simp
    rw [e1, fails_le p (l0 ++ [e]) fun x hx => h x (by simp [hx])]
    have he := h e (by simp)
    cases hf : e.failTs with
    | none => rw [failuresSince_other l0 e he hf]; simp [fails, hf]
    | some t =>
      obtain ⟨k, rfl⟩ := failTs_eq hf
      rw [failuresSince_fail]; simp [fails, hf]; omega

/-- The failure that opens the breaker. -/
theorem opening (th : Int) : ∀ (l l0 : List Ev), Outage l → (failuresSince l0).length < th → (failuresSince (l0 ++ l)).length < th ∨
    ∃ p k t q, l = p ++ Ev.recFail k t :: q ∧ (failuresSince (l0 ++ p)).length < th ∧ th ≤ (failuresSince (l0 ++ p ++ [Ev.recFail k t])).length
  | [], l0, _, h => Or.inl (by simpa using h)
  | e :: l, l0, ho, h => by
    by_cases hc : (failuresSince (l0 ++ [e])).length < th
    · rcases opening th l (l0 ++ [e]) (fun x hx => ho x (by simp [hx])) hc with h1 | ⟨p, k, t, q, rfl, h1, h2⟩
      · exact Or.inl (by simpa using h1)
      · exact Or.inr ⟨e :: p, k, t, q, rfl, by simpa using h1, by simpa using h2⟩
    · cases hf : e.failTs with
      | none => rw [failuresSince_other l0 e (ho e (by simp)) hf] at hc; omega
      | some t =>
        obtain ⟨k, rfl⟩ := failTs_eq hf
        exact Or.inr ⟨[], k, t, l, rfl, by simpa using h, by simpa using hc⟩

theorem startsIn_append (x y : Int) (a b : List Ev) : startsIn x y (a ++ b) = startsIn x y a ++ startsIn x y b := by
  unfold startsIn; rw [List.filter_append]

/-- **C123**, without panics: from any moment on, while nothing succeeds and at most `n` tasks are in progress at once, at most
`th - 1 + k n` tasks are started within `k` reset timeouts. -/
theorem C123_partial (th to : Int) (as : List Action) (s : State) (n k : Nat) (l0 l1 : List Ev) (x : Int) (hth : 1 ≤ th) (hto : 0 ≤ to)
    (hs : exec step (init th to) as = some s) (hf : Forward as) (hl : s.log = l0 ++ l1) (ho : Outage l1) (hn : AtMost n s.log) (hp : NoPanic l1) :
    ((startsIn x (x + k * (to + 1)) l1).length : Int) ≤ th - 1 + k * n := by
  have hreach : Reachable step (init th to) s := ⟨as, hs⟩
  obtain ⟨m, hr⟩ := read_init hs hf
  have hkn : 0 ≤ (k : Int) * n := Int.mul_nonneg (by omega) (by omega)
  cases k with
  | zero =>
    have := startsIn_empty x (x + (0 : Nat) * (to + 1)) l1 (by simp)
    rw [this]; simp; omega
  | succ k =>
  have e0 : ((k + 1 : Nat) : Int) * n = k * n + n := by push_cast; rw [Int.add_mul]; omega
  have hk0 : 0 ≤ (k : Int) * n := Int.mul_nonneg (by omega) (by omega)
  by_cases hopen : th ≤ (failuresSince l0).length
  · have := open_windows th to hto as s hs hf n hn l0 l1 hl ho hp hopen x (k + 1)
    omega
  · rcases opening th l1 l0 ho (by omega) with h1 | ⟨p, j, t, q, rfl, h1, h2⟩
    · have h2 := before_open hreach hn (l0 := l0) (p := l1) (q := []) (by rw [hl]; simp) ho hp x (x + ((k + 1 : Nat) : Int) * (to + 1))
      have h3 := fails_le l1 l0 ho
      omega
    · have hop : Outage p := fun e he => ho e (by simp [he])
      have hpp : NoPanic p := fun i he => hp i (by simp [he])
      have hoq : Outage q := fun e he => ho e (by simp [he])
      have hpq : NoPanic q := fun i he => hp i (by simp [he])
      have h3 := before_open hreach hn (p := p) (q := .recFail j t :: q) hl hop hpp x (x + ((k + 1 : Nat) : Int) * (to + 1))
      have h4 := fails_le p l0 hop
      have hl' : s.log = l0 ++ p ++ [.recFail j t] ++ q := by rw [hl]; simp
      have e1 : p ++ Ev.recFail j t :: q = p ++ ([.recFail j t] ++ q) := rfl
      have e2 : startsIn x (x + ((k + 1 : Nat) : Int) * (to + 1)) [.recFail j t] = [] := rfl
      rw [e1, startsIn_append, startsIn_append, e2, List.length_append]
      simp only [List.nil_append]
      by_cases ht : x ≤ t
      · -- nothing is started in the rest of the first timeout
        have h5 := open_windows th to hto as s hs hf n hn _ q hl' hoq hpq h2 (x + to + 1) k
        have e3 : x + ((k + 1 : Nat) : Int) * (to + 1) = x + to + 1 + k * (to + 1) := by push_cast; rw [Int.add_mul]; omega
        have hkt : 0 ≤ (k : Int) * (to + 1) := Int.mul_nonneg (by omega) (by omega)
        have h6 : startsIn x (x + to + 1) q = [] := by
          rw [List.eq_nil_iff_forall_not_mem]
          intro e he
          obtain ⟨i, n', -, hm, h7, h8⟩ := startsIn_mem he
          obtain ⟨a, b, rfl⟩ := List.append_of_mem hm
          rw [List.append_assoc, failuresSince_append l0 _ (fun e he => ho e (by
            simp at he ⊢
            rcases he with he | he
            · exact .inl he
            · exact .inr (.inl he)))] at h2
          have := late_start hreach hr hl (fun e he => ho e (by
            simp at he ⊢
            rcases he with he | he | he
            · exact .inl he
            · exact .inr (.inl he)
            · exact .inr (.inr (.inl he)))) (by
              rw [List.filterMap_reverse, List.filterMap_append, List.length_append, List.length_reverse, List.length_append] at h2
              simp [Ev.failTs] at h2
              omega)
          omega
        have h7 := startsIn_split x (x + to + 1) (x + to + 1 + k * (to + 1)) (by omega) (by omega) q
        rw [h6] at h7
        rw [e3] at h3 ⊢
        simp only [List.length_nil] at h7
        rw [e0]
        push_cast
        omega
      · -- nothing of the window was started before
        have h5 := open_windows th to hto as s hs hf n hn _ q hl' hoq hpq h2 x (k + 1)
        have h6 : startsIn x (x + ((k + 1 : Nat) : Int) * (to + 1)) p = [] := by
          rw [List.eq_nil_iff_forall_not_mem]
          intro e he
          obtain ⟨i, n', -, hm, h7, h8⟩ := startsIn_mem he
          have hb := hr.before
          rw [hl, ← List.append_assoc, List.pairwise_append] at hb
          have := hb.2.2 (.start i n') (by simp [hm]) (.recFail j t) (by simp) i n' j t rfl rfl
          omega
        rw [h6]
        push_cast at *
        simp only [List.length_nil]
        omega

/-! ### Examples -/

/-- The tasks in progress. -/
def flying (p : List Ev) : List Nat :=
  (p.filterMap fun | .start k _ => some k | _ => none).filter fun k =>
    !p.any fun | .recFail j _ => j = k | .recOk j => j = k | .finish j .panic => j = k | _ => false

theorem flying_mem {p : List Ev} {k : Nat} (h : InFlight p k) : k ∈ flying p := by
  obtain ⟨⟨n, h1⟩, h2, h3, h4⟩ := h
  unfold flying
  rw [List.mem_filter]
  refine ⟨List.mem_filterMap.2 ⟨_, h1, rfl⟩, ?_⟩
  simp only [Bool.not_eq_true', List.any_eq_false]
  intro e he
  cases e with
  | recFail j t => simp; rintro rfl; exact h2 _ he
  | recOk j => simp; rintro rfl; exact h3 he
  | finish j o => cases o <;> simp; rintro rfl; exact h4 he
  | _ => simp

theorem atMost_of (n : Nat) (log : List Ev) (h : ∀ i < log.length + 1, (flying (log.take i)).length ≤ n) : AtMost n log := by
  intro p hp ks hnd hks
  exact Nat.le_trans (nodup_le hnd fun k hk => flying_mem (hks k hk)) (by
    have := h p.length (by have := hp.length_le; omega)
    rwa [← List.prefix_iff_eq_take.1 hp] at this)

/-- The bound is reached: threshold 2, timeout 10, two tasks at once, two timeouts: 2 - 1 + 2 · 2 = 5 tasks. -/
def fullOutage : List Action :=
  [.call 100, .decide 0, .taskEnd 0 (.err 1), .record 0 100, .errCb 0,
   .call 100, .call 100, .decide 1, .decide 2, .taskEnd 1 (.err 1), .taskEnd 2 (.err 1), .record 1 100, .record 2 100, .errCb 1, .errCb 2,
   .call 110, .decide 3, .openCb 3,
   .call 111, .call 111, .decide 4, .decide 5, .taskEnd 4 (.err 1), .record 4 111, .call 111, .decide 6, .openCb 6]

example : ∃ s, exec step (init 2 10) fullOutage = some s ∧ Forward fullOutage ∧ Outage s.log ∧ NoPanic s.log ∧ AtMost 2 s.log ∧
    ((startsIn 100 (100 + (2 : Nat) * (10 + 1)) s.log).length : Int) = 2 - 1 + (2 : Nat) * (2 : Nat) := by
  refine ⟨(exec step (init 2 10) fullOutage).get (by decide), by simp, by unfold Forward; decide, ?_, ?_, ?_, by decide⟩
  · unfold Outage; decide
  · intro k hk
    have : ∀ e ∈ ((exec step (init 2 10) fullOutage).get (by decide)).log, ∀ j, e ≠ Ev.finish j .panic := by
      intro e he j hj
      subst hj
      have h2 : (((exec step (init 2 10) fullOutage).get (by decide)).log.all fun | .finish _ .panic => false | _ => true) = true := by decide
      have := (List.all_eq_true.1 h2) _ he
      simp at this
    exact this _ hk k rfl
  · exact atMost_of _ _ (by decide)

/-- A failure, then tasks that panic, one after the other. -/
def panicking : List Action :=
  [.call 100, .decide 0, .taskEnd 0 (.err 1), .record 0 100, .errCb 0,
   .call 111, .decide 1, .taskEnd 1 .panic, .call 112, .decide 2, .taskEnd 2 .panic]

/-- **C123 is violated**: a task that panics is not recorded, and each of them is followed by the next. -/
theorem C123_violated : ¬ C123Claim := by
  intro h
  have := h 1 10 panicking ((exec step (init 1 10) panicking).get (by decide)) 1 1 [] _ 111 (by decide) (by decide) (by simp)
    (by unfold Forward; decide) rfl (by unfold Outage; decide) (atMost_of _ _ (by decide))
  revert this
  decide

end Gears.CircuitBreaker
