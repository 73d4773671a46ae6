import Verif.TtlRedis.LuaSpec
import Verif.TtlRedis.Sha1

/-
Loading the scripts: `LoadScript`, the script caches of several redis servers, `EVALSHA`.
-/

namespace Gears.TtlRedis.Load

open Lua

/-- How redis names a script. -/
def digest (lines : List String) : Str := Sha1.hex (Sha1.bytes lines)

/-- The scripts: false is `script1`, true is `script2`. -/
def text (w : Bool) : List String := if w then text2 else text1

/-- A redis server: the database and the script cache. -/
structure Server where
  db    : RDb
  cache : List (Str × List String)

/-- The global variables `scriptSha1`, `scriptSha2` (ttl_ratelimiter_redis.go:127-130) and the servers. -/
structure State where
  sha : Bool → Str
  srv : Nat → Server

def State.init : State := ⟨fun _ => [], fun _ => ⟨fun _ => none, []⟩⟩

def State.set (st : State) (s : Nat) (x : Server) : State := { st with srv := fun s' => if s' = s then x else st.srv s' }

def lookup (c : List (Str × List String)) (h : Str) : Option (List String) :=
  match c with
  | [] => none
  | (h', x) :: c => if h' = h then some x else lookup c h

/-- `SCRIPT LOAD`: a script whose digest is known is not replaced. -/
def Server.load (x : Server) (lines : List String) : Server :=
  match lookup x.cache (digest lines) with
  | some _ => x
  | none => { x with cache := (digest lines, lines) :: x.cache }

/-- `EVALSHA`: other names than digests of 40 digits, and unknown ones, give NOSCRIPT. -/
def Server.evalSha (x : Server) (ar : Arith) (t : Int) (h : Str) (keys argv : List Str) : RDb × Except RErr (Option (List Item)) :=
  if h.length = 40 then
    match lookup x.cache h with
    | some lines => evalScript ar t (compiled lines) keys argv x.db
    | none => (x.db, .error .lua)
  else (x.db, .error .lua)

/-- What happens: the two requests of `LoadScript` (259-266), `SCRIPT LOAD` by somebody else, `SCRIPT FLUSH` or a restart that keeps the
data, a call of a limiter whose client is connected to the server. -/
inductive Op where
  | load (w : Bool) (s : Nat) (up : Bool)
  | other (s : Nat) (lines : List String)
  | flush (s : Nat)
  | call (s : Nat) (t : Int) (c : Call)

/-- What is seen of it. -/
inductive Out where
  | nothing
  | panic
  | result (r : Result)
deriving DecidableEq

def Out.of : Option Result → Out
  | some r => .result r
  | none => .panic

/-- One step.  `loadScript` (268-274) panics if the request fails, and else stores the digest that the server answers. -/
def step (ar : Arith) (st : State) : Op → State × Out
  | .load w s up =>
    if up then ({ st.set s ((st.srv s).load (text w)) with sha := fun w' => if w' = w then digest (text w) else st.sha w' }, .nothing)
    else (st, .panic)
  | .other s lines => (st.set s ((st.srv s).load lines), .nothing)
  | .flush s => (st.set s { st.srv s with cache := [] }, .nothing)
  | .call s t c =>
    match c with
    | .should tag pc pu key bk msg now =>
      if pc.notSet then (st, .result .zero)
      else
        let r := (st.srv s).evalSha ar t (st.sha false) [listKey tag key, blockRKey tag bk]
          [dec pu.capacity, dec pu.window, dec pu.timeout, dec now, msg]
        (st.set s { st.srv s with db := r.1 }, .of (goResult r.2))
    | .isBlocked bk =>
      let r := (st.srv s).evalSha ar t (st.sha true) [bk ++ sfx] []
      (st.set s { st.srv s with db := r.1 }, .of (goResult r.2))
    | .shouldDown pc => (st, if pc.notSet then .result .zero else .of (goResult (.error .lua)))
    | .isBlockedDown => (st, .of (goResult (.error .lua)))

def after (ar : Arith) (st : State) : List Op → State
  | [] => st
  | op :: ops => after ar (step ar st op).1 ops

/-- What a call gets after a history. -/
def answer (ar : Arith) (hs : List Op) (s : Nat) (t : Int) (c : Call) : Out := (step ar (after ar .init hs) (.call s t c)).2

/-- `LoadScript` with the client of a server that is up. -/
def loadScript (s : Nat) : List Op := [.load false s true, .load true s true]

/-! ## Specification -/

/-- The process loaded the script, on whatever server. -/
def Loaded (hs : List Op) (w : Bool) : Prop := ∃ s, .load w s true ∈ hs

/-- Somebody loaded the script on the server, and it was not flushed since. -/
def Cached (hs : List Op) (s : Nat) (lines : List String) : Prop :=
  ∃ a op b, hs = a ++ op :: b ∧ (op = .other s lines ∨ ∃ w, text w = lines ∧ op = .load w s true) ∧ .flush s ∉ b

/-- The script that a call needs. -/
def needs : Call → Bool
  | .should .. => false
  | .shouldDown _ => false
  | _ => true

/-- The call if redis does not know the script. -/
def down : Call → Call
  | .should _ pc _ _ _ _ _ => .shouldDown pc
  | .shouldDown pc => .shouldDown pc
  | _ => .isBlockedDown

/-- Redis knows the script and the process knows its name. -/
def Ready (hs : List Op) (s : Nat) (c : Call) : Prop := Loaded hs (needs c) ∧ Cached hs s (text (needs c))

open Classical in
/-- The call as it counts after a history. -/
noncomputable def counts (hs : List Op) (s : Nat) (c : Call) : Call := if Ready hs s c then c else down c

/-- The calls on a server as they count; `hs` happened before. -/
noncomputable def seen (s : Nat) (hs : List Op) : List Op → List (Int × Call)
  | [] => []
  | op :: ops => (match op with
      | .call s' t c => if s' = s then [(t, counts hs s c)] else []
      | _ => []) ++ seen s (hs ++ [op]) ops

/-- Nobody loads another script with the digest of one of ours. -/
def NoCollision (hs : List Op) : Prop := ∀ s lines w, .other s lines ∈ hs → digest lines = digest (text w) → lines = text w

/-- The numbers of all calls are at most 2^52. -/
def SmallOps (hs : List Op) : Prop := ∀ s t c, .call s t c ∈ hs → SmallCall t c

/-! ## Proofs -/

theorem counts_small (hs : List Op) (s : Nat) {t : Int} {c : Call} (h : SmallCall t c) : SmallCall t (counts hs s c) := by
  unfold counts
  split
  · exact h
  · cases c <;> trivial

theorem seen_small (s : Nat) : ∀ (ops hs : List Op), SmallOps ops → ∀ x ∈ seen s hs ops, SmallCall x.1 x.2
  | [], _, _, x, hx => by simp [seen] at hx
  | op :: ops, hs, h, x, hx => by
    unfold seen at hx
    rw [List.mem_append] at hx
    rcases hx with hx | hx
    · split at hx
      · rename_i s' t c
        split at hx
        · rw [List.mem_singleton] at hx
          subst hx
          exact counts_small hs s (h s' t c (by simp))
        · simp at hx
      · simp at hx
    · exact seen_small s ops _ (fun s t c hm => h s t c (List.mem_cons_of_mem _ hm)) x hx

theorem digest1 : digest text1 = "a7efe6b88308865fc7ede8583ec187dfd5598b92".toList := by decide +kernel

theorem digest2 : digest text2 = "a2df2c23459f8d64d202385c4ca60d963363b2ce".toList := by decide +kernel

attribute [irreducible] digest

theorem digest_len (w : Bool) : (digest (text w)).length = 40 := by
  cases w
  · show (digest text1).length = 40; rw [digest1]; rfl
  · show (digest text2).length = 40; rw [digest2]; rfl

theorem digest_inj (w w' : Bool) (h : digest (text w) = digest (text w')) : w = w' := by
  have h12 : digest text1 ≠ digest text2 := by rw [digest1, digest2]; decide +kernel
  cases w <;> cases w' <;> first | rfl | exact absurd h h12 | exact absurd h.symm h12

theorem after_append (ar : Arith) (ops ops' : List Op) (st : State) :
    after ar st (ops ++ ops') = after ar (after ar st ops) ops' := by
  induction ops generalizing st with
  | nil => rfl
  | cons op ops ih => exact ih _

theorem cached_snoc (hs : List Op) (op : Op) (s : Nat) (lines : List String) :
    Cached (hs ++ [op]) s lines ↔ (op = .other s lines ∨ ∃ w, text w = lines ∧ op = .load w s true) ∨ (Cached hs s lines ∧ op ≠ .flush s) := by
  constructor
  · rintro ⟨a, o, b, he, ho, hb⟩
    rcases List.eq_nil_or_concat b with rfl | ⟨b', x, rfl⟩
    · have := List.append_inj_right' he rfl
      simp at this
      subst this
      exact .inl ho
    · rw [List.concat_eq_append] at he hb
      rw [show a ++ o :: (b' ++ [x]) = (a ++ o :: b') ++ [x] by simp] at he
      obtain ⟨h1, h2⟩ := List.append_inj' he rfl
      simp at h2
      subst h2
      refine .inr ⟨⟨a, o, b', h1, ho, fun h => hb (by simp [h])⟩, fun h => hb (by simp [h])⟩
  · rintro (ho | ⟨⟨a, o, b, rfl, ho, hb⟩, hx⟩)
    · exact ⟨hs, op, [], by simp, ho, by simp⟩
    · refine ⟨a, o, b ++ [op], by simp, ho, ?_⟩
      simp only [List.mem_append, List.mem_singleton, not_or]
      exact ⟨hb, fun h => hx h.symm⟩

theorem loaded_snoc (hs : List Op) (op : Op) (w : Bool) : Loaded (hs ++ [op]) w ↔ Loaded hs w ∨ ∃ s, op = .load w s true := by
  unfold Loaded
  simp only [List.mem_append, List.mem_singleton]
  constructor
  · rintro ⟨s, h | h⟩
    · exact .inl ⟨s, h⟩
    · exact .inr ⟨s, h.symm⟩
  · rintro (⟨s, h⟩ | ⟨s, h⟩)
    · exact ⟨s, .inl h⟩
    · exact ⟨s, .inr h.symm⟩

theorem seen_snoc (s : Nat) (op : Op) (ops hs : List Op) : seen s hs (ops ++ [op]) = seen s hs ops ++ (match op with
    | .call s' t c => if s' = s then [(t, counts (hs ++ ops) s c)] else []
    | _ => []) := by
  induction ops generalizing hs with
  | nil => simp [seen]
  | cons o ops ih =>
    show _ ++ seen s (hs ++ [o]) (ops ++ [op]) = _
    rw [ih]
    simp [seen]

theorem run_snoc (db : Db) (cs : List (Int × Call)) (t : Int) (c : Call) :
    run db (cs ++ [(t, c)]) = ((c.exec (run db cs).1 t).1, (run db cs).2 ++ [⟨t, c, (c.exec (run db cs).1 t).2⟩]) := by
  induction cs generalizing db with
  | nil => rfl
  | cons x cs ih =>
    obtain ⟨t', c'⟩ := x
    simp [run, ih]

/-- What a server knows of our scripts, and what the process knows. -/
structure Inv (hs : List Op) (st : State) : Prop where
  sha   : ∀ w, (Loaded hs w → st.sha w = digest (text w)) ∧ (¬ Loaded hs w → st.sha w = [])
  cache : ∀ s w, (Cached hs s (text w) → lookup (st.srv s).cache (digest (text w)) = some (text w)) ∧
    (¬ Cached hs s (text w) → lookup (st.srv s).cache (digest (text w)) = none)
  db    : ∀ s, (st.srv s).db = abs (run Db.empty (seen s [] hs)).1

theorem inv_init : Inv [] .init := by
  refine ⟨fun w => ⟨fun ⟨s, h⟩ => by simp at h, fun _ => rfl⟩, fun s w => ⟨fun ⟨a, o, b, h, _⟩ => by simp at h, fun _ => rfl⟩, fun s => rfl⟩

theorem lookup_load (x : Server) (lines : List String) (w : Bool) (hc : digest lines = digest (text w) → lines = text w) :
    lookup (x.load lines).cache (digest (text w)) =
      if lines = text w then some ((lookup x.cache (digest (text w))).getD (text w)) else lookup x.cache (digest (text w)) := by
  unfold Server.load
  by_cases h : lines = text w
  · subst h
    rw [if_pos rfl]
    cases hl : lookup x.cache (digest (text w)) with
    | some y => simp [hl]
    | none => simp [lookup]
  · rw [if_neg h]
    have hd : digest lines ≠ digest (text w) := fun e => h (hc e)
    cases hl : lookup x.cache (digest lines) with
    | some y => rfl
    | none => simp [lookup, hd]

theorem load_db (x : Server) (lines : List String) : (x.load lines).db = x.db := by
  unfold Server.load; split <;> rfl

variable {ar : Arith}

/-- The effect of a call, and its answer. -/
theorem call_step (hx : ar.Exact) {hs : List Op} (hso : SmallOps hs) {st : State} (hi : Inv hs st) (s : Nat) (t : Int) (c : Call) (hc : SmallCall t c) :
    (step ar st (.call s t c)).2 = .result ((counts hs s c).exec (run Db.empty (seen s [] hs)).1 t).2 ∧
    (step ar st (.call s t c)).1.sha = st.sha ∧
    (∀ s', ((step ar st (.call s t c)).1.srv s').cache = (st.srv s').cache) ∧
    (∀ s', ((step ar st (.call s t c)).1.srv s').db =
      if s' = s then abs ((counts hs s c).exec (run Db.empty (seen s [] hs)).1 t).1 else (st.srv s').db) := by
  have hdb := hi.db s
  have hfit := fits_run fits_empty (seen_small s hs [] hso)
  generalize (run Db.empty (seen s [] hs)).1 = d at hdb hfit
  cases c with
  | should tag pc pu key bk msg now =>
    by_cases hn : pc.notSet
    · have hz : ∀ c, (c = Call.should tag pc pu key bk msg now ∨ c = .shouldDown pc) → c.exec d t = (d, .zero) := by
        rintro c (rfl | rfl)
        · simp [Call.exec, shouldBlock2, hn]
        · simp [Call.exec, hn]
      have hcn : counts hs s (.should tag pc pu key bk msg now) = .should tag pc pu key bk msg now ∨
          counts hs s (.should tag pc pu key bk msg now) = .shouldDown pc := by
        unfold counts; split <;> simp [down]
      rw [hz _ hcn]
      simp only [step, if_pos hn]
      refine ⟨trivial, trivial, fun _ => trivial, fun s' => ?_⟩
      split
      · rename_i e; rw [e, hdb]
      · rfl
    · simp only [step, if_neg hn]
      by_cases hr : Ready hs s (.should tag pc pu key bk msg now)
      · have hcn : counts hs s (.should tag pc pu key bk msg now) = .should tag pc pu key bk msg now := by unfold counts; rw [if_pos hr]
        rw [hcn]
        have h1 := (hi.sha false).1 hr.1
        have h2 := (hi.cache s false).1 hr.2
        have he : (st.srv s).evalSha ar t (st.sha false) [listKey tag key, blockRKey tag bk]
            [dec pu.capacity, dec pu.window, dec pu.timeout, dec now, msg] =
            evalScript ar t (compiled text1) [listKey tag key, blockRKey tag bk] [dec pu.capacity, dec pu.window, dec pu.timeout, dec now, msg] (abs d) := by
          unfold Server.evalSha
          rw [h1, if_pos (digest_len false), h2, hdb]
          rfl
        have hs2 := C105_should hx d hfit t tag pc pu key bk msg now hc
        unfold goShouldBlock2 at hs2
        rw [if_neg hn] at hs2
        simp only [Prod.mk.injEq] at hs2
        rw [he]
        refine ⟨by rw [hs2.2]; rfl, rfl, fun s' => ?_, fun s' => ?_⟩
        · simp only [State.set]; split
          · rename_i e; rw [e]
          · rfl
        · simp only [State.set]; split
          · simp only [hs2.1]; rfl
          · rfl
      · have hcn : counts hs s (.should tag pc pu key bk msg now) = .shouldDown pc := by unfold counts; rw [if_neg hr]; rfl
        rw [hcn]
        have he : (st.srv s).evalSha ar t (st.sha false) [listKey tag key, blockRKey tag bk]
            [dec pu.capacity, dec pu.window, dec pu.timeout, dec now, msg] = ((st.srv s).db, .error .lua) := by
          unfold Server.evalSha
          by_cases hl : Loaded hs false
          · have h2 := (hi.cache s false).2 fun h => hr ⟨hl, h⟩
            rw [(hi.sha false).1 hl, if_pos (digest_len false), h2]
          · rw [(hi.sha false).2 hl, if_neg (by simp)]
        rw [he]
        refine ⟨by simp [Call.exec, hn, goResult, Out.of, Result.ofEval], rfl, fun s' => ?_, fun s' => ?_⟩
        · simp only [State.set]; split
          · rename_i e; rw [e]
          · rfl
        · simp only [State.set]; split
          · exact hdb
          · rfl
  | isBlocked bk =>
    simp only [step]
    by_cases hr : Ready hs s (.isBlocked bk)
    · have hcn : counts hs s (.isBlocked bk) = .isBlocked bk := by unfold counts; rw [if_pos hr]
      rw [hcn]
      have h1 := (hi.sha true).1 hr.1
      have h2 := (hi.cache s true).1 hr.2
      have he : (st.srv s).evalSha ar t (st.sha true) [bk ++ sfx] [] = evalScript ar t (compiled text2) [bk ++ sfx] [] (abs d) := by
        unfold Server.evalSha
        rw [h1, if_pos (digest_len true), h2, hdb]
        rfl
      have hs2 := C105_isBlocked (ar := ar) d t bk
      unfold goIsBlocked at hs2
      simp only [Prod.mk.injEq] at hs2
      rw [he]
      refine ⟨by rw [hs2.2]; rfl, rfl, fun s' => ?_, fun s' => ?_⟩
      · simp only [State.set]; split
        · rename_i e; rw [e]
        · rfl
      · simp only [State.set]; split
        · simp only [hs2.1]; rfl
        · rfl
    · have hcn : counts hs s (.isBlocked bk) = .isBlockedDown := by unfold counts; rw [if_neg hr]; rfl
      rw [hcn]
      have he : (st.srv s).evalSha ar t (st.sha true) [bk ++ sfx] [] = ((st.srv s).db, .error .lua) := by
        unfold Server.evalSha
        by_cases hl : Loaded hs true
        · have h2 := (hi.cache s true).2 fun h => hr ⟨hl, h⟩
          rw [(hi.sha true).1 hl, if_pos (digest_len true), h2]
        · rw [(hi.sha true).2 hl, if_neg (by simp)]
      rw [he]
      refine ⟨rfl, rfl, fun s' => ?_, fun s' => ?_⟩
      · simp only [State.set]; split
        · rename_i e; rw [e]
        · rfl
      · simp only [State.set]; split
        · exact hdb
        · rfl
  | shouldDown pc =>
    have hcn : counts hs s (.shouldDown pc) = .shouldDown pc := by unfold counts; split <;> rfl
    rw [hcn]
    simp only [step, Call.exec]
    refine ⟨?_, trivial, fun _ => trivial, fun s' => ?_⟩
    · split <;> rfl
    · split
      · rename_i e; rw [e, hdb]
      · rfl
  | isBlockedDown =>
    have hcn : counts hs s .isBlockedDown = .isBlockedDown := by unfold counts; split <;> rfl
    rw [hcn]
    simp only [step, Call.exec]
    refine ⟨rfl, trivial, fun _ => trivial, fun s' => ?_⟩
    split
    · rename_i e; rw [e, hdb]
    · rfl

/-- A step that loads a text on a server. -/
theorem cache_load {hs : List Op} {st : State} (hi : Inv hs st) (op : Op) (s : Nat) (lines : List String)
    (hop : ∀ s' l, (op = .other s' l ∨ ∃ w, text w = l ∧ op = .load w s' true) ↔ (s' = s ∧ l = lines)) (hf : ∀ s', op ≠ .flush s')
    (hc : ∀ w, digest lines = digest (text w) → lines = text w) (s' : Nat) (w : Bool) :
    (Cached (hs ++ [op]) s' (text w) → lookup ((st.set s ((st.srv s).load lines)).srv s').cache (digest (text w)) = some (text w)) ∧
    (¬ Cached (hs ++ [op]) s' (text w) → lookup ((st.set s ((st.srv s).load lines)).srv s').cache (digest (text w)) = none) := by
  have hk := hi.cache s' w
  rw [cached_snoc, hop]
  simp only [State.set]
  by_cases hs' : s' = s
  · subst hs'
    simp only [if_true]
    rw [lookup_load _ _ _ (hc w)]
    by_cases hl : text w = lines
    · rw [if_pos hl.symm]
      refine ⟨fun _ => ?_, fun h => absurd (.inl ⟨trivial, hl⟩) h⟩
      by_cases hk' : Cached hs s' (text w)
      · rw [hk.1 hk']; rfl
      · rw [hk.2 hk']; rfl
    · rw [if_neg (fun e => hl e.symm)]
      refine ⟨?_, fun h => hk.2 fun hc => h (.inr ⟨hc, hf _⟩)⟩
      rintro (⟨_, h⟩ | ⟨h, _⟩)
      · exact absurd h hl
      · exact hk.1 h
  · rw [if_neg hs']
    refine ⟨?_, fun h => hk.2 fun hc => h (.inr ⟨hc, hf _⟩)⟩
    rintro (⟨h, _⟩ | ⟨h, _⟩)
    · exact absurd h hs'
    · exact hk.1 h

theorem set_db (st : State) (s : Nat) (x : Server) (hx : x.db = (st.srv s).db) (s' : Nat) : ((st.set s x).srv s').db = (st.srv s').db := by
  simp only [State.set]
  split
  · rename_i e; rw [e, hx]
  · rfl

theorem text_inj {w w' : Bool} (h : text w = text w') : w = w' := digest_inj w w' (by rw [h])

theorem inv_step (hx : ar.Exact) {hs : List Op} {st : State} (hi : Inv hs st) (op : Op) (hso : SmallOps (hs ++ [op])) (hn : NoCollision (hs ++ [op])) :
    Inv (hs ++ [op]) (step ar st op).1 := by
  have hsame : ∀ w, (∀ s, op ≠ .load w s true) → (Loaded (hs ++ [op]) w → st.sha w = digest (text w)) ∧ (¬ Loaded (hs ++ [op]) w → st.sha w = []) := by
    intro w h
    rw [loaded_snoc]
    refine ⟨?_, fun h' => (hi.sha w).2 fun hl => h' (.inl hl)⟩
    rintro (hl | ⟨s, hl⟩)
    · exact (hi.sha w).1 hl
    · exact absurd hl (h s)
  cases op with
  | load w s up =>
    cases up with
    | false =>
      refine ⟨fun w' => hsame w' (by simp), fun s' w' => ?_, fun s' => ?_⟩
      · rw [cached_snoc]
        have hk := hi.cache s' w'
        refine ⟨?_, fun h => hk.2 fun hc => h (.inr ⟨hc, by simp⟩)⟩
        rintro ((h | ⟨_, _, h⟩) | ⟨h, _⟩)
        · simp at h
        · simp at h
        · exact hk.1 h
      · rw [seen_snoc]
        simpa [step] using hi.db s'
    | true =>
      refine ⟨fun w' => ?_, fun s' w' => ?_, fun s' => ?_⟩
      · simp only [step, if_true]
        rw [loaded_snoc]
        by_cases h : w' = w
        · subst h
          simp
        · have := hsame w' (by rintro s' e; simp at e; exact h e.1.symm)
          rw [loaded_snoc] at this
          simpa [h] using this
      · refine cache_load hi (.load w s true) s (text w) ?_ (by simp) ?_ s' w'
        · intro s'' l
          simp only [Op.load.injEq, reduceCtorEq, false_or, and_true]
          constructor
          · rintro ⟨w'', rfl, rfl, rfl⟩; exact ⟨rfl, rfl⟩
          · rintro ⟨rfl, rfl⟩; exact ⟨w, rfl, rfl, rfl⟩
        · intro w'' e; rw [digest_inj _ _ e]
      · rw [seen_snoc]
        simp only [step, if_true, List.append_nil]
        exact (set_db _ _ _ (load_db _ _) s').trans (hi.db s')
  | other s lines =>
    refine ⟨fun w' => hsame w' (by simp), fun s' w' => ?_, fun s' => ?_⟩
    · refine cache_load hi (.other s lines) s lines ?_ (by simp) ?_ s' w'
      · intro s'' l
        simp only [Op.other.injEq, reduceCtorEq, and_false, exists_false, or_false]
        exact ⟨fun ⟨a, b⟩ => ⟨a.symm, b.symm⟩, fun ⟨a, b⟩ => ⟨a.symm, b.symm⟩⟩
      · exact fun w'' e => hn s lines w'' (by simp) e
    · rw [seen_snoc]
      simp only [step, List.append_nil]
      exact (set_db _ _ _ (load_db _ _) s').trans (hi.db s')
  | flush s =>
    refine ⟨fun w' => hsame w' (by simp), fun s' w' => ?_, fun s' => ?_⟩
    · have hk := hi.cache s' w'
      rw [cached_snoc]
      simp only [step, State.set, reduceCtorEq, false_or, and_false, exists_false, ne_eq, Op.flush.injEq]
      by_cases hs' : s' = s
      · subst hs'
        simp [lookup]
      · rw [if_neg hs']
        exact ⟨fun h => hk.1 h.1, fun h => hk.2 fun hc => h ⟨hc, fun e => hs' e.symm⟩⟩
    · rw [seen_snoc]
      simp only [step, List.append_nil]
      exact (set_db st s { st.srv s with cache := [] } rfl s').trans (hi.db s')
  | call s t c =>
    obtain ⟨_, c2, c3, c4⟩ := call_step hx (fun s t c h => hso s t c (by simp [h])) hi s t c (hso s t c (by simp))
    refine ⟨fun w' => ?_, fun s' w' => ?_, fun s' => ?_⟩
    · rw [c2]; exact hsame w' (by simp)
    · rw [c3, cached_snoc]
      have hk := hi.cache s' w'
      refine ⟨?_, fun h => hk.2 fun hc => h (.inr ⟨hc, by simp⟩)⟩
      rintro ((h | ⟨_, _, h⟩) | ⟨h, _⟩)
      · simp at h
      · simp at h
      · exact hk.1 h
    · rw [c4, seen_snoc]
      simp only [List.nil_append]
      split
      · rename_i e
        subst e
        rw [if_pos rfl, run_snoc]
      · rename_i e
        rw [if_neg (fun h => e h.symm), List.append_nil]
        exact hi.db s'

theorem inv_after (hx : ar.Exact) (hs : List Op) (hso : SmallOps hs) (hn : NoCollision hs) : Inv hs (after ar .init hs) := by
  have h : ∀ (b a : List Op), SmallOps (a ++ b) → NoCollision (a ++ b) → Inv a (after ar .init a) → Inv (a ++ b) (after ar .init (a ++ b)) := by
    intro b
    induction b with
    | nil => intro a _ _ hi; simpa using hi
    | cons op b ih =>
      intro a hso hn hi
      have h1 := inv_step hx hi op (fun s t c h => hso s t c (by simp at h ⊢; rcases h with h | h <;> simp [h])) fun s l w h => hn s l w (by simp at h ⊢; rcases h with h | h <;> simp [h])
      have h2 := ih (a ++ [op]) (by simpa using hso) (by simpa using hn) (by rw [after_append]; exact h1)
      simpa using h2
  exact h hs [] (by simpa using hso) (by simpa using hn) inv_init

/-! ## C106 -/

/-- The digests are those that `sha1sum` computes; different, and of 40 digits. -/
theorem C106_digests : digest text1 = "a7efe6b88308865fc7ede8583ec187dfd5598b92".toList ∧ digest text2 = "a2df2c23459f8d64d202385c4ca60d963363b2ce".toList :=
  ⟨digest1, digest2⟩

/-- Every call is answered as the limiter of C15–C22 answers it after the same calls on that server, where the calls made while redis or the
process did not know the script count as calls made while redis is down. -/
theorem C106_answer (hx : ar.Exact) (hs : List Op) (hn : NoCollision hs) (hso : SmallOps hs) (s : Nat) (t : Int) (c : Call) (hc : SmallCall t c) :
    answer ar hs s t c = .result ((counts hs s c).exec (run Db.empty (seen s [] hs)).1 t).2 :=
  (call_step hx hso (inv_after hx hs hso hn) s t c hc).1

/-- Claim: once `LoadScript` succeeded with the client of the server, the calls on that server are decided by the scripts. -/
def C106Claim (ar : Arith) : Prop :=
  ∀ (a b : List Op) (s : Nat) (t : Int) (c : Call), NoCollision (a ++ loadScript s ++ b) → SmallOps (a ++ loadScript s ++ b) → SmallCall t c →
    answer ar (a ++ loadScript s ++ b) s t c = .result (c.exec (run Db.empty (seen s [] (a ++ loadScript s ++ b))).1 t).2

/-- It holds as long as the scripts of the server are not flushed; other servers and other scripts do not matter. -/
theorem C106_partial (hx : ar.Exact) (a b : List Op) (s : Nat) (t : Int) (c : Call) (hn : NoCollision (a ++ loadScript s ++ b))
    (hso : SmallOps (a ++ loadScript s ++ b)) (hc : SmallCall t c) (hf : .flush s ∉ b) :
    answer ar (a ++ loadScript s ++ b) s t c = .result (c.exec (run Db.empty (seen s [] (a ++ loadScript s ++ b))).1 t).2 := by
  rw [C106_answer hx _ hn hso _ _ _ hc]
  have hr : Ready (a ++ loadScript s ++ b) s c := by
    have h1 : ∀ w, Loaded (a ++ loadScript s ++ b) w := fun w => ⟨s, by cases w <;> simp [loadScript]⟩
    refine ⟨h1 _, ?_⟩
    cases needs c with
    | false => exact ⟨a, .load false s true, .load true s true :: b, by simp [loadScript], .inr ⟨false, rfl, rfl⟩, by simpa using hf⟩
    | true => exact ⟨a ++ [.load false s true], .load true s true, b, by simp [loadScript], .inr ⟨true, rfl, rfl⟩, hf⟩
  unfold counts
  rw [if_pos hr]

/-- Without the script — before `LoadScript`, after a flush, on another server — nothing is ever blocked. -/
theorem C106_open (hx : ar.Exact) (hs : List Op) (hn : NoCollision hs) (hso : SmallOps hs) (s : Nat) (t : Int) (c : Call) (hc : SmallCall t c) (hr : ¬ Ready hs s c) :
    answer ar hs s t c = .result .zero := by
  rw [C106_answer hx _ hn hso _ _ _ hc]
  unfold counts
  rw [if_neg hr]
  cases c with
  | should tag pc pu key bk msg now => simp only [down, Call.exec]; split <;> rfl
  | isBlocked bk => rfl
  | shouldDown pc => simp only [down, Call.exec]; split <;> rfl
  | isBlockedDown => rfl

/-- The example: one call per 10 seconds; the second call blocks the key; then redis forgets its scripts, and the third call passes. -/
def p1 : Params := ⟨1, 10, 20⟩

def sample (now : Int) : Call := .should [] p1 p1 "k".toList "k".toList "m".toList now

def flushed (s : Nat) : List Op := loadScript s ++ [.call s 0 (sample 0), .call s 1000 (sample 1), .flush s]

theorem sample_small : SmallOps (loadScript 0 ++ [.call 0 0 (sample 0), .call 0 1000 (sample 1)]) := by
  intro s t c h
  simp [loadScript] at h
  rcases h with ⟨rfl, rfl, rfl⟩ | ⟨rfl, rfl, rfl⟩ <;> decide

theorem flushed_small : SmallOps (flushed 0) := by
  intro s t c h
  simp [flushed, loadScript] at h
  rcases h with ⟨rfl, rfl, rfl⟩ | ⟨rfl, rfl, rfl⟩ <;> decide

theorem not_cached_flush (hs : List Op) (s : Nat) (l : List String) : ¬ Cached (hs ++ [.flush s]) s l := by
  rw [cached_snoc]
  rintro ((h | ⟨_, _, h⟩) | ⟨_, h⟩)
  · simp at h
  · simp at h
  · exact h rfl

theorem seen_calls : seen 0 [] (loadScript 0 ++ [.call 0 0 (sample 0), .call 0 1000 (sample 1)]) = [(0, sample 0), (1000, sample 1)] := by
  have hc : ∀ hs c, Ready hs 0 c → counts hs 0 c = c := fun hs c hr => by unfold counts; rw [if_pos hr]
  have r1 : Ready (loadScript 0) 0 (sample 0) := ⟨⟨0, by simp [loadScript, needs, sample]⟩,
    ⟨[], .load false 0 true, [.load true 0 true], rfl, .inr ⟨false, rfl, rfl⟩, by simp⟩⟩
  have r2 : Ready (loadScript 0 ++ [.call 0 0 (sample 0)]) 0 (sample 1) := ⟨⟨0, by simp [loadScript, needs, sample]⟩,
    ⟨[], .load false 0 true, [.load true 0 true, .call 0 0 (sample 0)], rfl, .inr ⟨false, rfl, rfl⟩, by simp⟩⟩
  have e1 := hc _ _ r1
  have e2 := hc _ _ r2
  simp only [loadScript, List.cons_append, List.nil_append] at e1 e2
  simp [loadScript, seen, e1, e2]

theorem seen_flushed : seen 0 [] (flushed 0) = [(0, sample 0), (1000, sample 1)] := by
  have h := seen_snoc 0 (.flush 0) (loadScript 0 ++ [.call 0 0 (sample 0), .call 0 1000 (sample 1)]) []
  rw [seen_calls] at h
  simpa [flushed] using h

/-- Not flushed, the third call is blocked for 19 more seconds. -/
example (hx : ar.Exact) : answer ar (loadScript 0 ++ [.call 0 0 (sample 0), .call 0 1000 (sample 1)]) 0 2000 (sample 2) =
    .result ⟨true, false, 19, "m".toList⟩ := by
  have h := C106_partial hx [] [.call 0 0 (sample 0), .call 0 1000 (sample 1)] 0 2000 (sample 2)
    (by intro s l w hm; simp [loadScript] at hm) sample_small (by decide) (by simp)
  rw [show [] ++ loadScript 0 ++ [.call 0 0 (sample 0), .call 0 1000 (sample 1)] = loadScript 0 ++ [.call 0 0 (sample 0), .call 0 1000 (sample 1)] from rfl,
    seen_calls] at h
  rw [h]
  decide

theorem C106_violated (hx : ar.Exact) : ¬ C106Claim ar := by
  intro h
  have hn : NoCollision (flushed 0) := by intro s l w hm; simp [flushed, loadScript] at hm
  have h1 := h [] [.call 0 0 (sample 0), .call 0 1000 (sample 1), .flush 0] 0 2000 (sample 2) hn flushed_small (by decide)
  have h2 := C106_open hx (flushed 0) hn flushed_small 0 2000 (sample 2) (by decide) fun hr =>
    not_cached_flush (loadScript 0 ++ [.call 0 0 (sample 0), .call 0 1000 (sample 1)]) 0 _ (by simpa [flushed] using hr.2)
  rw [show [] ++ loadScript 0 ++ [.call 0 0 (sample 0), .call 0 1000 (sample 1), .flush 0] = flushed 0 from rfl, h2] at h1
  rw [seen_flushed] at h1
  revert h1
  decide

/-- If the second request of `LoadScript` fails, it panics, and from then on keys are blocked but `IsBlocked` does not see it. -/
theorem C106_half (hx : ar.Exact) (s : Nat) (b : List Op) (hn : NoCollision ([.load false s true, .load true s false] ++ b))
    (hso : SmallOps b) (hb : ∀ s' up, .load true s' up ∉ b) (t : Int) (bk : Str) :
    (step ar (after ar .init [.load false s true]) (.load true s false)).2 = .panic ∧
    answer ar ([.load false s true, .load true s false] ++ b) s t (.isBlocked bk) = .result .zero := by
  refine ⟨rfl, C106_open hx _ hn (fun s' t' c h => hso s' t' c (by simpa using h)) s t _ trivial ?_⟩
  rintro ⟨⟨s', h⟩, _⟩
  simp [needs] at h
  exact hb _ _ h

end Gears.TtlRedis.Load
