import Verif.Confstore.Model

/-
Processors that look at the store (confstore/store.go:38-71, 138-168, 239-253; loader.go:16-18, 37-56, 66-68;
persister.go:44-58): `Validate` or `Convert` of a key may want to know the values of other keys (a maximum that has to be
above a minimum, say) and call GetValueString of the store that calls them.

One goroutine, with the locks that it holds for writing (readers give their locks back before they call a processor).  A
goroutine that asks for a lock that it holds itself waits for good: Go's locks are not reentrant.  Calls are evaluated with
a limit `n` on the depth of nested calls of GetValueString; a call that returns for no `n` waits for good or goes deeper and
deeper, until the runtime ends the process (stack overflow).  Redis may answer each HGETALL differently, and in any order.
-/

namespace Gears.Confstore.Reenter

/-- What a method of a processor does: it returns, or first calls GetValueString (`none`: no such key). -/
inductive Prog (α : Type) where
  | ret (a : α)
  | get (k : String) (f : Option String → Prog α)

structure Proc (V : Type) where
  /-- the error, `none` if the value is valid -/
  validate : String → Prog (Option String)
  convert  : String → Prog V

inductive Policy where
  | noop | simple | spaced
deriving DecidableEq

/-- What happens outside of the store when it loads for the `j`-th time. -/
structure Env where
  policy : Policy
  /-- it is too early to load (loader.go:45-48) -/
  early  : Nat → Bool
  /-- the answer to HGETALL, `none` if it is an error -/
  reply  : Nat → Option (List (String × String))

structure State (V : Type) where
  proc    : String → Option (Proc V)
  dflt    : String → Option V
  dfltStr : String → Option String
  kv      : String → Option V
  kvStr   : String → Option String
  /-- how often the store has loaded -/
  loads   : Nat
  /-- the goroutine holds loadLock, kvProcessorLock, kvLock for writing -/
  lockL   : Bool
  lockP   : Bool
  lockK   : Bool

/-- How a call ends. -/
inductive Res (V α : Type) where
  | done (s : State V) (a : α)
  /-- waits for a lock that the goroutine holds itself -/
  | stuck
  /-- the nesting is too deep -/
  | out

variable {V α β : Type}

def Res.bind (r : Res V α) (f : State V → α → Res V β) : Res V β :=
  match r with
  | .done s a => f s a
  | .stuck => .stuck
  | .out => .out

/-- A nested call of GetValueString. -/
abbrev Get (V : Type) := String → State V → Res V (Option String)

/-- Runs a method of a processor. -/
def runProg (get : Get V) : Prog α → State V → Res V α
  | .ret a, s => .done s a
  | .get k f, s => (get k s).bind (fun s' v => runProg get (f v) s')

/-- `UpdateNoPersist` (store.go:138-168). -/
def updateNoPersist (get : Get V) (k v : String) (s : State V) : Res V (Option KVError) :=
  if k = "" then .done s none
  else if s.lockP then .stuck                                         -- 143
  else match s.proc k with
    | none => .done s (some ⟨k, v, notRegistered k⟩)
    | some p =>
      (runProg get (p.validate v) s).bind fun s e =>
        match e with
        | some e => .done s (some ⟨k, v, e⟩)
        | none =>
          if s.lockK then .stuck                                      -- 163
          else (runProg get (p.convert v) { s with lockK := true }).bind fun s x =>
            .done { s with kv := setKey s.kv k (some x), kvStr := setKey s.kvStr k (some v), lockK := false } none

/-- The loop of `Load` (persister.go:50-55). -/
def loadPairs (get : Get V) : List (String × String) → State V → Res V Unit
  | [], s => .done s ()
  | x :: l, s => (updateNoPersist get x.1 x.2 s).bind fun s _ => loadPairs get l s

/-- `Load` (persister.go:44-58). -/
def load (env : Env) (get : Get V) (s : State V) : Res V Unit :=
  match env.reply s.loads with
  | none => .done { s with loads := s.loads + 1 } ()
  | some l => loadPairs get l { s with loads := s.loads + 1 }

/-- `DoLoad` (loader.go:16-18, 66-68, 37-56). -/
def doLoad (env : Env) (get : Get V) (s : State V) : Res V Unit :=
  match env.policy with
  | .noop => .done s ()
  | .simple => load env get s
  | .spaced =>
    if s.lockL then .stuck
    else if env.early s.loads then .done { s with loads := s.loads + 1 } ()
    else (load env get { s with lockL := true }).bind fun s _ => .done { s with lockL := false } ()

/-- What `GetValueString` finds (store.go:245-251). -/
def State.visible (s : State V) (k : String) : Option String := (s.kvStr k).or (s.dfltStr k)

/-- `GetValueString` (store.go:239-253), with at most `n` calls inside each other. -/
def getStr (env : Env) : Nat → Get V
  | 0, _, _ => .out
  | n + 1, k, s =>
    (doLoad env (getStr env n) s).bind fun s _ =>
      if s.lockK then .stuck else .done s (s.visible k)

/-- `RegisterKey` with a processor (store.go:38-71). -/
def register (get : Get V) (k d : String) (p : Proc V) (s : State V) : Res V RegRes :=
  if k = "" then .done s .emptyKey
  else if s.lockP ∨ s.lockK then .stuck
  else
    let free := fun s : State V => { s with lockP := false, lockK := false }
    if (s.proc k).isSome then .done s .duplicate
    else if (s.dflt k).isSome then .done s .duplicate
    else (runProg get (p.validate d) { s with lockP := true, lockK := true }).bind fun s e =>
      match e with
      | some e => .done (free s) (.invalid e)
      | none => (runProg get (p.convert d) s).bind fun s x =>
        .done (free { s with dflt := setKey s.dflt k (some x), dfltStr := setKey s.dfltStr k (some d), proc := setKey s.proc k (some p) }) .ok

/-- The goroutine holds no lock of the store. -/
def State.Free (s : State V) : Prop := s.lockL = false ∧ s.lockP = false ∧ s.lockK = false

/-- The call returns. -/
def Res.returns : Res V α → Prop
  | .done _ _ => True
  | _ => False

/-- **C149**, the claim: a processor may read the store; every call of a goroutine that holds no lock returns. -/
def C149Claim : Prop :=
  ∀ (V : Type) (env : Env) (s : State V), s.Free →
    (∀ k, ∃ n, (getStr env n k s).returns) ∧
    (∀ k v, ∃ n, (updateNoPersist (getStr env n) k v s).returns) ∧
    (∀ k d p, ∃ n, (register (getStr env n) k d p s).returns)

/-! ### The limit does not matter -/

/-- A bigger limit changes no result. -/
def Le (g h : Get V) : Prop := ∀ k s, g k s = .out ∨ g k s = h k s

theorem bind_le {r r' : Res V α} {f f' : State V → α → Res V β} (hr : r = .out ∨ r = r') (hf : ∀ s a, f s a = .out ∨ f s a = f' s a) :
    r.bind f = .out ∨ r.bind f = r'.bind f' := by
  rcases hr with rfl | rfl
  · exact Or.inl rfl
  · cases r with
    | done s a => exact hf s a
    | stuck => exact Or.inr rfl
    | out => exact Or.inl rfl

theorem runProg_le {g h : Get V} (hg : Le g h) : ∀ (p : Prog α) (s : State V), runProg g p s = .out ∨ runProg g p s = runProg h p s
  | .ret _, _ => Or.inr rfl
  | .get k f, s => bind_le (hg k s) (fun s' v => runProg_le hg (f v) s')

theorem update_le {g h : Get V} (hg : Le g h) (k v : String) (s : State V) :
    updateNoPersist g k v s = .out ∨ updateNoPersist g k v s = updateNoPersist h k v s := by
  unfold updateNoPersist
  split
  · exact Or.inr rfl
  · split
    · exact Or.inr rfl
    · split
      · exact Or.inr rfl
      · refine bind_le (runProg_le hg _ _) ?_
        intro s e
        split
        · exact Or.inr rfl
        · split
          · exact Or.inr rfl
          · exact bind_le (runProg_le hg _ _) (fun _ _ => Or.inr rfl)

theorem loadPairs_le {g h : Get V} (hg : Le g h) : ∀ (l : List (String × String)) (s : State V),
    loadPairs g l s = .out ∨ loadPairs g l s = loadPairs h l s
  | [], _ => Or.inr rfl
  | _ :: l, s => bind_le (update_le hg _ _ s) (fun s _ => loadPairs_le hg l s)

theorem load_le {g h : Get V} (env : Env) (hg : Le g h) (s : State V) : load env g s = .out ∨ load env g s = load env h s := by
  unfold load
  split
  · exact Or.inr rfl
  · exact loadPairs_le hg _ _

theorem doLoad_le {g h : Get V} (env : Env) (hg : Le g h) (s : State V) : doLoad env g s = .out ∨ doLoad env g s = doLoad env h s := by
  unfold doLoad
  split
  · exact Or.inr rfl
  · exact load_le env hg s
  · split
    · exact Or.inr rfl
    · split
      · exact Or.inr rfl
      · exact bind_le (load_le env hg _) (fun _ _ => Or.inr rfl)

theorem getStr_succ_le (env : Env) : ∀ (n : Nat), Le (getStr (V := V) env n) (getStr env (n + 1))
  | 0, _, _ => Or.inl rfl
  | n + 1, k, s => by
    show (doLoad env (getStr env n) s).bind _ = .out ∨ _ = (doLoad env (getStr env (n + 1)) s).bind _
    exact bind_le (doLoad_le env (getStr_succ_le env n) s) (fun _ _ => Or.inr rfl)

theorem Le.trans {f g h : Get V} (a : Le f g) (b : Le g h) : Le f h := by
  intro k s
  rcases a k s with e | e
  · exact Or.inl e
  · rw [e]; exact b k s

theorem getStr_le (env : Env) (n : Nat) : ∀ (d : Nat), Le (getStr (V := V) env n) (getStr env (n + d))
  | 0 => fun _ _ => Or.inr rfl
  | d + 1 => (getStr_le env n d).trans (getStr_succ_le env (n + d))

/-- **C149**: what a call returns does not depend on the limit. -/
theorem C149_limit (env : Env) (k : String) (s : State V) (n m : Nat) (s1 s2 : State V) (a b : Option String) (h1 : getStr env n k s = .done s1 a)
    (h2 : getStr env m k s = .done s2 b) : s1 = s2 ∧ a = b := by
  have key : ∀ (n d : Nat) (s1 s2 : State V) (a b : Option String), getStr env n k s = .done s1 a → getStr env (n + d) k s = .done s2 b →
      s1 = s2 ∧ a = b := by
    intro n d s1 s2 a b h1 h2
    rcases getStr_le env n d k s with e | e
    · rw [e] at h1; cases h1
    · rw [e, h2] at h1
      cases h1
      exact ⟨rfl, rfl⟩
  rcases Nat.le_total n m with h | h
  · obtain ⟨d, rfl⟩ := Nat.exists_eq_add_of_le h
    exact key n d s1 s2 a b h1 h2
  · obtain ⟨d, rfl⟩ := Nat.exists_eq_add_of_le h
    obtain ⟨e1, e2⟩ := key m d s2 s1 b a h2 h1
    exact ⟨e1.symm, e2.symm⟩

/-! ### What calls leave as it was -/

/-- The processors and the locks are as before. -/
structure Same (s s' : State V) : Prop where
  proc : s'.proc = s.proc
  l : s'.lockL = s.lockL
  p : s'.lockP = s.lockP
  k : s'.lockK = s.lockK

theorem Same.refl (s : State V) : Same s s := ⟨rfl, rfl, rfl, rfl⟩

theorem Same.trans {a b c : State V} (h : Same a b) (h' : Same b c) : Same a c :=
  ⟨h'.proc.trans h.proc, h'.l.trans h.l, h'.p.trans h.p, h'.k.trans h.k⟩

/-- A call that returns gives its locks back. -/
def Keeps (f : State V → Res V α) : Prop := ∀ s s' a, f s = .done s' a → Same s s'

theorem bind_done {r : Res V α} {f : State V → α → Res V β} {s' : State V} {b : β} (h : r.bind f = .done s' b) :
    ∃ s a, r = .done s a ∧ f s a = .done s' b := by
  cases r with
  | done s a => exact ⟨s, a, rfl, h⟩
  | stuck => cases h
  | out => cases h

theorem runProg_keeps {g : Get V} (hg : ∀ k, Keeps (g k)) : ∀ (p : Prog α), Keeps (runProg g p)
  | .ret _ => by
    intro s s' a h
    cases h
    exact Same.refl _
  | .get k f => by
    intro s s' a h
    obtain ⟨s1, v, h1, h2⟩ := bind_done h
    exact (hg k s s1 v h1).trans (runProg_keeps hg (f v) s1 s' a h2)

theorem update_keeps {g : Get V} (hg : ∀ k, Keeps (g k)) (k v : String) : Keeps (updateNoPersist g k v) := by
  intro s s' a h
  unfold updateNoPersist at h
  split at h
  · cases h; exact Same.refl _
  · split at h
    · cases h
    · split at h
      · cases h; exact Same.refl _
      · obtain ⟨s1, e, h1, h2⟩ := bind_done h
        have r1 := runProg_keeps hg _ s s1 e h1
        split at h2
        · cases h2; exact r1
        · split at h2
          · cases h2
          · rename_i hk
            obtain ⟨s2, x, h3, h4⟩ := bind_done h2
            have r2 := runProg_keeps hg _ _ s2 x h3
            cases h4
            refine r1.trans ⟨r2.proc, r2.l, r2.p, ?_⟩
            simpa using hk

theorem loadPairs_keeps {g : Get V} (hg : ∀ k, Keeps (g k)) : ∀ (l : List (String × String)), Keeps (loadPairs g l)
  | [] => by
    intro s s' a h
    cases h
    exact Same.refl _
  | x :: l => by
    intro s s' a h
    obtain ⟨s1, v, h1, h2⟩ := bind_done h
    exact (update_keeps hg _ _ s s1 v h1).trans (loadPairs_keeps hg l s1 s' a h2)

theorem load_keeps {g : Get V} (env : Env) (hg : ∀ k, Keeps (g k)) : Keeps (load env g) := by
  intro s s' a h
  unfold load at h
  split at h
  · cases h; exact ⟨rfl, rfl, rfl, rfl⟩
  · have := loadPairs_keeps hg _ _ s' a h
    exact ⟨this.proc, this.l, this.p, this.k⟩

theorem doLoad_keeps {g : Get V} (env : Env) (hg : ∀ k, Keeps (g k)) : Keeps (doLoad env g) := by
  intro s s' a h
  unfold doLoad at h
  split at h
  · cases h; exact Same.refl _
  · exact load_keeps env hg s s' a h
  · split at h
    · cases h
    · rename_i hl
      split at h
      · cases h; exact ⟨rfl, rfl, rfl, rfl⟩
      · obtain ⟨s1, v, h1, h2⟩ := bind_done h
        have := load_keeps env hg _ s1 v h1
        cases h2
        exact ⟨this.proc, by simpa using hl, this.p, this.k⟩

theorem getStr_keeps (env : Env) : ∀ (n : Nat) (k : String), Keeps (getStr (V := V) env n k)
  | 0, _ => by intro s s' a h; cases h
  | n + 1, k => by
    intro s s' a h
    obtain ⟨s1, v, h1, h2⟩ := bind_done h
    have r1 := doLoad_keeps env (getStr_keeps env n) s s1 v h1
    split at h2
    · cases h2
    · cases h2; exact r1

/-- **C149**: a call that returns has given back what it took. -/
theorem C149_free (env : Env) (n : Nat) (s s' : State V) (h : s.Free) :
    (∀ k a, getStr env n k s = .done s' a → s'.Free) ∧
    (∀ k v a, updateNoPersist (getStr env n) k v s = .done s' a → s'.Free) := by
  obtain ⟨h1, h2, h3⟩ := h
  refine ⟨fun k a e => ?_, fun k v a e => ?_⟩
  · have := getStr_keeps env n k s s' a e
    exact ⟨by rw [this.l, h1], by rw [this.p, h2], by rw [this.k, h3]⟩
  · have := update_keeps (getStr_keeps env n) k v s s' a e
    exact ⟨by rw [this.l, h1], by rw [this.p, h2], by rw [this.k, h3]⟩

/-! ### Calls that do not return -/

theorem not_returns_bind {r : Res V α} {f : State V → α → Res V β} (h : ∀ s a, r = .done s a → ¬ (f s a).returns) : ¬ (r.bind f).returns := by
  cases r with
  | done s a => exact h s a rfl
  | stuck => exact id
  | out => exact id

/-- Nobody who holds kvLock can read. -/
theorem getStr_locked (env : Env) (n : Nat) (k : String) (s : State V) (h : s.lockK = true) : ¬ (getStr env n k s).returns := by
  cases n with
  | zero => exact id
  | succ n =>
    refine not_returns_bind ?_
    intro s1 a e
    have := doLoad_keeps env (getStr_keeps env n) s s1 a e
    rw [if_pos (by rw [this.k]; exact h)]
    exact id

/-- **C149 is violated**: `RegisterKey` does not return if Validate of the default value reads any key, whatever the load policy. -/
theorem C149_register_violated (env : Env) (n : Nat) (s : State V) (hs : s.Free) (k d : String) (hk : k ≠ "") (h1 : s.proc k = none)
    (h2 : s.dflt k = none) (p : Proc V) (k' : String) (f : Option String → Prog (Option String)) (hp : p.validate d = .get k' f) :
    ¬ (register (getStr env n) k d p s).returns := by
  unfold register
  rw [if_neg hk, if_neg (by rw [hs.2.1, hs.2.2]; simp)]
  simp only [h1, h2, Option.isSome_none, Bool.false_eq_true, if_false]
  refine not_returns_bind ?_
  intro s1 e he
  rw [hp] at he
  exfalso
  obtain ⟨s2, v, h3, _⟩ := bind_done he
  exact getStr_locked env n k' _ rfl (by rw [h3]; trivial)

/-- **C149 is violated**: an update does not return if Convert reads any key, whatever the load policy. -/
theorem C149_convert_violated (env : Env) (n : Nat) (s : State V) (hs : s.Free) (k v : String) (hk : k ≠ "") (p : Proc V) (h1 : s.proc k = some p)
    (hv : p.validate v = .ret none) (k' : String) (f : Option String → Prog V) (hp : p.convert v = .get k' f) :
    ¬ (updateNoPersist (getStr env n) k v s).returns := by
  unfold updateNoPersist
  rw [if_neg hk, if_neg (by rw [hs.2.1]; simp), h1]
  simp only [hv, runProg, Res.bind]
  rw [if_neg (by rw [hs.2.2]; simp)]
  refine not_returns_bind (r := runProg (getStr env n) (p.convert v) { s with lockK := true }) ?_
  intro s1 e he
  rw [hp] at he
  exfalso
  obtain ⟨s2, v, h3, _⟩ := bind_done he
  exact getStr_locked env n k' _ rfl (by rw [h3]; trivial)

/-- Loading a pair whose Validate reads. -/
theorem loadPairs_reads {g : Get V} (hg : ∀ k, Keeps (g k)) (k1 v1 : String) (hk1 : k1 ≠ "") (p : Proc V) (k' : String)
    (f : Option String → Prog (Option String)) (hp : p.validate v1 = .get k' f)
    : ∀ (l : List (String × String)) (s : State V), (k1, v1) ∈ l → s.proc k1 = some p →
      (∀ s', Same s s' → ¬ (g k' s').returns) → ¬ (loadPairs g l s).returns
  | [], _, h, _, _ => by simp at h
  | x :: l, s, h, hs, hno => by
    refine not_returns_bind ?_
    intro s1 a e
    have hk := update_keeps hg _ _ s s1 a e
    rcases List.mem_cons.1 h with rfl | h
    · exfalso
      unfold updateNoPersist at e
      rw [if_neg hk1] at e
      split at e
      · cases e
      · rw [hs] at e
        simp only [hp] at e
        obtain ⟨s2, b, h1, _⟩ := bind_done e
        obtain ⟨s3, v, h2, _⟩ := bind_done h1
        exact hno s (Same.refl s) (by rw [h2]; trivial)
    · exact loadPairs_reads hg k1 v1 hk1 p k' f hp l s1 h (by rw [hk.proc]; exact hs) (fun s' h' => hno s' (hk.trans h'))

/-- **C149 is violated**: if redis holds a value of a registered key whose Validate reads any key, then no read returns: with the
simple policy the store loads inside of loading inside of loading, with the spaced one it waits for its own loadLock. -/
theorem C149_load_violated (env : Env) (he : env.policy ≠ .noop) (k1 v1 : String) (hk1 : k1 ≠ "") (p : Proc V) (k' : String)
    (f : Option String → Prog (Option String)) (hp : p.validate v1 = .get k' f)
    (hr : ∀ j, env.early j = false ∧ ∃ l, env.reply j = some l ∧ (k1, v1) ∈ l) : ∀ (n : Nat) (k : String) (s : State V),
    s.proc k1 = some p → ¬ (getStr env n k s).returns
  | 0, _, _, _ => id
  | n + 1, k, s, hs => by
    refine not_returns_bind ?_
    intro s1 a e
    exfalso
    have ih := C149_load_violated env he k1 v1 hk1 p k' f hp hr n
    have hload : ∀ s : State V, s.proc k1 = some p → ¬ (load env (getStr env n) s).returns := by
      intro s hs
      obtain ⟨l, hl, hm⟩ := (hr s.loads).2
      unfold load
      rw [hl]
      exact loadPairs_reads (getStr_keeps env n) k1 v1 hk1 p k' f hp l _ hm hs
        (fun s' h' => ih k' s' (by rw [h'.proc]; exact hs))
    unfold doLoad at e
    cases hpol : env.policy with
    | noop => exact he hpol
    | simple =>
      rw [hpol] at e
      have e' : load env (getStr env n) s = .done s1 a := e
      exact hload s hs (by rw [e']; trivial)
    | spaced =>
      rw [hpol] at e
      simp only at e
      split at e
      · cases e
      · rw [(hr s.loads).1] at e
        simp only [Bool.false_eq_true, if_false] at e
        obtain ⟨s2, b, h1, _⟩ := bind_done e
        exact hload { s with lockL := true } hs (by rw [h1]; trivial)

/-- With the spaced policy it waits for good. -/
theorem C149_spaced_stuck (env : Env) (he : env.policy = .spaced) (n : Nat) (k : String) (s : State V) (h : s.lockL = true) :
    getStr env (n + 1) k s = .stuck := by
  show (doLoad env (getStr env n) s).bind _ = _
  unfold doLoad
  rw [he]
  simp only [h, if_true]
  rfl

/-! ### Calls that return -/

/-- What a method returns when the keys have these values. -/
def Prog.eval (read : String → Option String) : Prog α → α
  | .ret a => a
  | .get k f => (f (read k)).eval read

theorem runProg_noop (env : Env) (he : env.policy = .noop) (n : Nat) (s : State V) (hs : s.lockK = false) : ∀ (p : Prog α),
    runProg (getStr env (n + 1)) p s = .done s (p.eval s.visible)
  | .ret _ => rfl
  | .get k f => by
    have : getStr env (n + 1) k s = .done s (s.visible k) := by
      show (doLoad env (getStr env n) s).bind _ = _
      unfold doLoad
      rw [he]
      simp [Res.bind, hs]
    show (getStr env (n + 1) k s).bind _ = _
    rw [this]
    exact runProg_noop env he n s hs (f _)

/-- **C149, partial**: with the policy that never loads, Validate may read whatever it wants in an update, and reads the values as they
are; Convert reads nothing. -/
theorem C149_noop_partial (env : Env) (he : env.policy = .noop) (n : Nat) (s : State V) (hs : s.Free) (k v : String) (hk : k ≠ "") (p : Proc V)
    (h1 : s.proc k = some p) (x : V) (hx : p.convert v = .ret x) :
    updateNoPersist (getStr env (n + 1)) k v s = match (p.validate v).eval s.visible with
      | some e => .done s (some ⟨k, v, e⟩)
      | none => .done { s with kv := setKey s.kv k (some x), kvStr := setKey s.kvStr k (some v) } none := by
  obtain ⟨l1, l2, l3⟩ := hs
  unfold updateNoPersist
  rw [if_neg hk, if_neg (by rw [l2]; simp), h1]
  simp only [runProg_noop env he n s l3, Res.bind]
  split
  · rfl
  · rw [if_neg (by rw [l3]; simp), hx]
    obtain ⟨a1, a2, a3, a4, a5, a6, a7, a8, a9⟩ := s
    simp only at l3
    subst l3
    rfl

/-- The processors of Model.lean, which read nothing. -/
def lift (p : Confstore.Proc V) : Proc V := ⟨fun v => .ret (p.validate v), fun v => .ret (p.convert v)⟩

/-- The state as in Model.lean (`hash` is not used here). -/
def abs (proc : String → Option (Confstore.Proc V)) (hash : String → Option String) (s : State V) : Confstore.State V :=
  ⟨proc, s.dflt, s.dfltStr, s.kv, s.kvStr, hash⟩

/-- **C149, partial**: with processors that do not read the store, updates always return, with the results of C57-C66, whatever the
policy. -/
theorem C149_pure_partial (g : Get V) (s : State V) (hs : s.Free) (proc : String → Option (Confstore.Proc V)) (hp : s.proc = fun k => (proc k).map lift)
    (hash : String → Option String) (k v : String) :
    ∃ s', updateNoPersist g k v s = .done s' (Confstore.updateNoPersist (abs proc hash s) k v).2 ∧ s'.Free ∧ s'.proc = s.proc ∧
      abs proc hash s' = (Confstore.updateNoPersist (abs proc hash s) k v).1 := by
  have hs' := hs
  obtain ⟨l1, l2, l3⟩ := hs
  unfold updateNoPersist Confstore.updateNoPersist
  by_cases hk : k = ""
  · rw [if_pos hk, if_pos hk]
    exact ⟨s, rfl, hs', rfl, rfl⟩
  · rw [if_neg hk, if_neg hk, if_neg (by rw [l2]; simp), hp]
    simp only [abs]
    cases hq : proc k with
    | none => exact ⟨s, by simp, hs', hp, rfl⟩
    | some q =>
      simp only [Option.map_some, lift, runProg, Res.bind]
      cases hv : q.validate v with
      | some e => exact ⟨s, rfl, hs', hp, rfl⟩
      | none =>
        simp only [l3, Bool.false_eq_true, if_false]
        exact ⟨_, rfl, ⟨l1, l2, rfl⟩, hp, rfl⟩

/-- **C149, partial**: with the policy that never loads, a read (also one by a processor) returns what C57 says. -/
theorem C149_read_partial (env : Env) (he : env.policy = .noop) (n : Nat) (s : State V) (hs : s.lockK = false) (proc : String → Option (Confstore.Proc V))
    (hash : String → Option String) (k : String) : getStr env (n + 1) k s = .done s (Confstore.getValueString (abs proc hash s) k) := by
  show (doLoad env (getStr env n) s).bind _ = _
  unfold doLoad
  rw [he]
  simp only [Res.bind, hs, Bool.false_eq_true, if_false, State.visible, Confstore.getValueString, abs]
  cases s.kvStr k <;> rfl

/-- The claim does not hold. -/
theorem C149_violated : ¬ C149Claim := by
  intro h
  obtain ⟨n, hn⟩ := (h Unit ⟨.noop, fun _ => false, fun _ => none⟩ ⟨fun _ => none, fun _ => none, fun _ => none, fun _ => none, fun _ => none, 0, false, false, false⟩
    ⟨rfl, rfl, rfl⟩).2.2 "max" "5" ⟨fun _ => .get "min" (fun _ => .ret none), fun _ => .ret ()⟩
  exact C149_register_violated _ n _ ⟨rfl, rfl, rfl⟩ "max" "5" (by decide) rfl rfl _ "min" _ rfl hn

/-! ### A maximum above a minimum -/

/-- Refuses a maximum that equals the minimum. -/
def maxProc : Proc Unit := ⟨fun v => .get "min" (fun m => .ret (if m = some v then some "not above min" else none)), fun _ => .ret ()⟩

def exState : State Unit :=
  ⟨fun k => if k = "max" then some maxProc else none, fun _ => none, fun k => if k = "min" then some "1" else none, fun _ => none, fun _ => none,
    0, false, false, false⟩

def Res.error : Res V (Option KVError) → Option (Option String)
  | .done _ e => some (e.map (·.error))
  | _ => none

-- Without loading it does what it is for; with the pair in redis, nothing can be read.
example : (updateNoPersist (getStr ⟨.noop, fun _ => false, fun _ => none⟩ 1) "max" "1" exState).error = some (some "not above min") ∧
    (updateNoPersist (getStr ⟨.noop, fun _ => false, fun _ => none⟩ 1) "max" "2" exState).error = some none ∧
    (updateNoPersist (getStr ⟨.spaced, fun _ => false, fun _ => some [("min", "3")]⟩ 2) "max" "2" exState).error = some none ∧
    (updateNoPersist (getStr ⟨.spaced, fun _ => false, fun _ => some [("max", "3")]⟩ 2) "max" "2" exState).error = none := by decide

end Gears.Confstore.Reenter
