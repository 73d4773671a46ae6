import Verif.SlidingWindow.Model
import Mathlib.Data.List.Nodup
import Mathlib.Data.List.Perm.Subperm

namespace Gears.SlidingWindow

/-- Elements `n` positions apart are more than `W` apart. -/
def Spaced (n : Nat) (W : Int) (A : List Int) : Prop :=
  ∀ (k : Nat) (a b : Int), A[k]? = some a → A[k + n]? = some b → b - a > W

theorem Spaced.far {n : Nat} {W : Int} {A : List Int} (hW : 0 ≤ W) (h : Spaced n W A) (j : Nat) :
    ∀ (k : Nat) (a b : Int), A[k]? = some a → A[k + (j + 1) * n]? = some b → b - a > W := by
  induction j with
  | zero => intro k a b ha hb; exact h k a b ha (by simpa using hb)
  | succ j ih =>
    intro k a b ha hb
    have e : k + (j + 1 + 1) * n = (k + (j + 1) * n) + n := by rw [Nat.succ_mul (j + 1)]; omega
    rw [e] at hb
    have hlt : k + (j + 1) * n < A.length := by
      have : (k + (j + 1) * n) + n < A.length := by
        rcases Nat.lt_or_ge ((k + (j + 1) * n) + n) A.length with h' | h'
        · exact h'
        · simp [List.getElem?_eq_none h'] at hb
      omega
    have hm := List.getElem?_eq_getElem hlt
    have h1 := ih k a _ ha hm
    have h2 := h _ _ b hm hb
    omega

theorem countP_eq_filter_range (A : List Int) (p : Int → Bool) :
    A.countP p = ((List.range A.length).filter (fun k => p (A.getD k 0))).length := by
  have hA : A = (List.range A.length).map (fun k => A.getD k 0) := by
    apply List.ext_getElem
    · simp
    · intro i h1 h2; simp [h1]
  calc A.countP p = ((List.range A.length).map (fun k => A.getD k 0)).countP p := by rw [← hA]
    _ = _ := by rw [List.countP_map, List.countP_eq_length_filter]; rfl

/-- A spaced list has at most `n` elements in any closed interval of length `W`, in whatever order the elements are. -/
theorem Spaced.count_le {n : Nat} (hn : 0 < n) {W : Int} {A : List Int} (h : Spaced n W A) (lo : Int) :
    A.countP (fun a => decide (lo ≤ a) && decide (a ≤ lo + W)) ≤ n := by
  by_cases hW : 0 ≤ W
  swap
  · have : A.countP (fun a => decide (lo ≤ a) && decide (a ≤ lo + W)) = 0 := by
      rw [List.countP_eq_zero]
      intro a _
      simp; omega
    omega
  rw [countP_eq_filter_range]
  generalize hF : (List.range A.length).filter (fun k => _) = F
  have hFmem : ∀ k ∈ F, k < A.length ∧ lo ≤ A.getD k 0 ∧ A.getD k 0 ≤ lo + W := by
    intro k hk
    rw [← hF] at hk
    simpa using hk
  have hFnd : F.Nodup := by rw [← hF]; exact List.nodup_range.filter _
  -- residues are distinct
  have key : ∀ x ∈ F, ∀ y ∈ F, x < y → x % n ≠ y % n := by
    intro x hx y hy hxy he
    obtain ⟨hx1, hx2, hx3⟩ := hFmem x hx
    obtain ⟨hy1, hy2, hy3⟩ := hFmem y hy
    have hd : (y - x) % n = 0 := Nat.sub_mod_eq_zero_of_mod_eq he.symm
    obtain ⟨q, hq⟩ := Nat.dvd_of_mod_eq_zero hd
    have hq0 : q ≠ 0 := by rintro rfl; simp at hq; omega
    obtain ⟨j, rfl⟩ := Nat.exists_eq_succ_of_ne_zero hq0
    have hyx : y = x + (j + 1) * n := by rw [Nat.mul_comm]; simp only [Nat.succ_eq_add_one] at hq; omega
    have ha : A[x]? = some (A.getD x 0) := by simp [hx1]
    have hb : A[x + (j + 1) * n]? = some (A.getD y 0) := by rw [← hyx]; simp [hy1]
    have := h.far hW j x _ _ ha hb
    omega
  have hnd : (F.map (· % n)).Nodup := by
    apply List.Nodup.map_on _ hFnd
    intro x hx y hy he
    rcases Nat.lt_trichotomy x y with hlt | heq | hgt
    · exact absurd he (key x hx y hy hlt)
    · exact heq
    · exact absurd he.symm (key y hy x hx hgt)
  have hsub : F.map (· % n) ⊆ List.range n := by
    intro r hr
    simp at hr ⊢
    obtain ⟨k, _, rfl⟩ := hr
    exact Nat.mod_lt _ hn
  have := (hnd.subperm hsub).length_le
  simpa using this

theorem admittedIn_eq (h : History) (lo hi : Int) :
    admittedIn h lo hi = (admittedTimes h).countP (fun a => decide (lo ≤ a) && decide (a ≤ hi)) := by
  induction h with
  | nil => rfl
  | cons e h ih =>
    obtain ⟨t, b⟩ := e
    cases b
    · simpa [admittedIn, admittedTimes] using ih
    · simp only [admittedIn, admittedTimes, List.countP_cons] at ih ⊢
      simp [ih, List.countP_cons]

theorem admittedTimes_append (a b : History) : admittedTimes (a ++ b) = admittedTimes a ++ admittedTimes b := by
  simp [admittedTimes]

/-- The bookkeeping invariant of a limiter of capacity `n > 0`: the records are the last `≤ n` elements of the spaced
list `A` of everything admitted so far (preceded by what was retained by the last reconfiguration). -/
structure Inv (n : Nat) (W : Int) (A : List Int) (s : State) : Prop where
  hcap : s.capacity = n
  hwin : s.windowSize = W
  hlen : s.records.length ≤ n
  hsuf : ∃ P, P ++ s.records = A ∧ (P ≠ [] → s.records.length = n)
  hsp  : Spaced n W A

theorem Spaced.snoc {n : Nat} (hn : 0 < n) {W : Int} {A : List Int} (h : Spaced n W A) (x : Int)
    (hx : ∀ a, n ≤ A.length → A[A.length - n]? = some a → x - a > W) : Spaced n W (A ++ [x]) := by
  intro k a b ha hb
  have hkn : k + n < (A ++ [x]).length := by
    rcases Nat.lt_or_ge (k + n) (A ++ [x]).length with h' | h'
    · exact h'
    · simp [List.getElem?_eq_none h'] at hb
  simp at hkn
  by_cases he : k + n = A.length
  · rw [he] at hb
    simp at hb; subst hb
    have hk : k < A.length := by omega
    rw [List.getElem?_append_left hk] at ha
    exact hx a (by omega) (by rw [← he]; simpa using ha)
  · have hk2 : k + n < A.length := by omega
    rw [List.getElem?_append_left hk2] at hb
    rw [List.getElem?_append_left (by omega)] at ha
    exact h k a b ha hb

theorem acquire_inv {n : Nat} (hn : 0 < n) {W : Int} {A : List Int} {s : State} (inv : Inv n W A s) (now : Int) :
    ∃ s' b, acquire s now = some (s', b) ∧ Inv n W (A ++ (if b then [now] else [])) s' := by
  obtain ⟨hcap, hwin, hlen, ⟨P, hP, hPf⟩, hsp⟩ := inv
  have hc0 : ¬ s.capacity = 0 := by omega
  unfold acquire
  rw [if_neg hc0]
  by_cases hl : (s.records.length : Int) < s.capacity
  · rw [if_pos hl]
    have hPnil : P = [] := by
      apply Classical.byContradiction
      intro hne
      have := hPf hne; omega
    subst hPnil
    simp only [List.nil_append] at hP
    refine ⟨_, _, rfl, hcap, hwin, ?_, ⟨[], by simp [hP], by simp⟩, ?_⟩
    · simp; omega
    · simp only [if_true]
      apply hsp.snoc hn
      intro a hle _
      rw [← hP] at hle; omega
  · rw [if_neg hl]
    cases hr : s.records with
    | nil => rw [hr] at hl; simp at hl; omega
    | cons oldest rest =>
      rw [hr] at hl hlen hP hPf
      have hlen' : (oldest :: rest).length = n := by omega
      simp only
      by_cases hw : now - oldest > s.windowSize
      · rw [if_pos hw]
        refine ⟨_, _, rfl, hcap, hwin, ?_, ⟨P ++ [oldest], by simp [← hP], ?_⟩, ?_⟩
        · simp at hlen' ⊢; omega
        · intro _; simp at hlen' ⊢; omega
        · simp only [if_true]
          apply hsp.snoc hn
          intro a hle ha
          rw [← hP] at ha hle
          have he : (P ++ oldest :: rest).length - n = P.length := by
            rw [List.length_append, hlen']; omega
          rw [he] at ha
          simp at ha; subst ha; omega
      · rw [if_neg hw]
        refine ⟨_, _, rfl, hcap, hwin, by rw [hr]; exact hlen, ⟨P, by rw [hr]; simp [hP], ?_⟩, by simpa using hsp⟩
        intro hne; rw [hr]; exact hlen'

/-- The clock readings of a list of `Acquire` calls as operations. -/
def acquires (ts : List Int) : List Op := ts.map .acquire

theorem run_acquires_inv {n : Nat} (hn : 0 < n) {W : Int} (ts : List Int) :
    ∀ (A : List Int) (s : State), Inv n W A s →
      ∃ s' h, run s (acquires ts) = some (s', h) ∧ Inv n W (A ++ admittedTimes h) s' ∧ h.map (·.1) = ts := by
  induction ts with
  | nil => intro A s inv; exact ⟨s, [], rfl, by simpa [admittedTimes] using inv, rfl⟩
  | cons t ts ih =>
    intro A s inv
    obtain ⟨s1, b, he, inv1⟩ := acquire_inv hn inv t
    obtain ⟨s2, h, hr, inv2, hm⟩ := ih _ s1 inv1
    refine ⟨s2, (t, b) :: h, ?_, ?_, by simp [hm]⟩
    · simp only [acquires, List.map_cons, run, he] at hr ⊢
      rw [hr]
    · rw [List.append_assoc] at inv2
      cases b
      · simpa [admittedTimes] using inv2
      · simpa [admittedTimes] using inv2

theorem Spaced.short {n : Nat} {W : Int} {A : List Int} (h : A.length ≤ n) : Spaced n W A := by
  intro k a b _ hb
  rw [List.getElem?_eq_none (by omega)] at hb
  simp at hb

theorem shrink_length (c : Int) (hc : 0 ≤ c) (rs : List Int) : ((shrink c rs).length : Int) ≤ c := by
  induction rs with
  | nil => simpa [shrink] using hc
  | cons r rs ih =>
    simp only [shrink]
    split
    · exact ih
    · omega

theorem shrink_suffix (c : Int) (rs : List Int) : shrink c rs <:+ rs := by
  induction rs with
  | nil => simp [shrink]
  | cons r rs ih =>
    simp only [shrink]
    split
    · exact ih.trans (List.suffix_cons r rs)
    · exact List.suffix_refl _

theorem new_inv {n : Nat} (W : Int) : Inv n W [] (new n W) := by
  refine ⟨?_, rfl, by simp [new], ⟨[], by simp [new], by simp⟩, Spaced.short (by simp)⟩
  simp [new]; omega

theorem updateConfig_inv {n : Nat} (s : State) (W : Int) :
    Inv n W (updateConfig s n W).records (updateConfig s n W) := by
  have hn : ¬ ((n : Int) < 0) := by omega
  have hlen : (updateConfig s n W).records.length ≤ n := by
    have := shrink_length n (by omega) s.records
    simp only [updateConfig, hn, if_false]; omega
  refine ⟨?_, rfl, hlen, ⟨[], rfl, by simp⟩, Spaced.short hlen⟩
  simp [updateConfig, hn]

/-- No reachable state makes `Acquire` panic: `capacity ≥ 0` is all that is needed. -/
theorem acquire_total (s : State) (hc : 0 ≤ s.capacity) (now : Int) :
    ∃ s' b, acquire s now = some (s', b) ∧ s'.capacity = s.capacity ∧ s'.windowSize = s.windowSize := by
  unfold acquire
  split
  · exact ⟨_, _, rfl, rfl, rfl⟩
  · split
    · exact ⟨_, _, rfl, rfl, rfl⟩
    · rename_i h0 hl
      cases hr : s.records with
      | nil => rw [hr] at hl; simp at hl; omega
      | cons o r =>
        simp only
        split
        · exact ⟨_, _, rfl, rfl, rfl⟩
        · exact ⟨_, _, rfl, rfl, rfl⟩

end Gears.SlidingWindow
