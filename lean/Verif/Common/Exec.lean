/-
Generic executions of a transition system given by a partial step function.

A schedule is a finite list of actions; an action that is not enabled makes the schedule impossible
(`none`).  Quantifying over all lists of actions is quantifying over all finite schedules.
-/

namespace Gears

/-- Run a schedule (list of actions) from a state; `none` if some action is not enabled. -/
def exec {σ α : Type} (step : σ → α → Option σ) (s : σ) : List α → Option σ
  | [] => some s
  | a :: as =>
    match step s a with
    | some s' => exec step s' as
    | none => none

/-- `s'` can be reached from `s` by some schedule. -/
def Reachable {σ α : Type} (step : σ → α → Option σ) (s s' : σ) : Prop :=
  ∃ as, exec step s as = some s'

theorem exec_inv {σ α : Type} {step : σ → α → Option σ} {I : σ → Prop}
    (hstep : ∀ s a s', I s → step s a = some s' → I s') :
    ∀ (as : List α) (s s' : σ), I s → exec step s as = some s' → I s' := by
  intro as
  induction as with
  | nil =>
    intro s s' hs h
    simp [exec] at h; subst h; exact hs
  | cons a as ih =>
    intro s s' hs h
    simp only [exec] at h
    split at h
    · rename_i s1 h1
      exact ih _ _ (hstep _ _ _ hs h1) h
    · simp at h

theorem exec_inv_on {σ α : Type} {step : σ → α → Option σ} {I : σ → Prop} {P : α → Prop}
    (hstep : ∀ s a s', P a → I s → step s a = some s' → I s') :
    ∀ (as : List α) (s s' : σ), (∀ a ∈ as, P a) → I s → exec step s as = some s' → I s' := by
  intro as
  induction as with
  | nil =>
    intro s s' _ hs h
    simp [exec] at h; subst h; exact hs
  | cons a as ih =>
    intro s s' hp hs h
    simp only [exec] at h
    split at h
    · rename_i s1 h1
      exact ih _ _ (fun b hb => hp b (by simp [hb])) (hstep _ _ _ (hp a (by simp)) hs h1) h
    · simp at h

theorem Reachable.inv {σ α : Type} {step : σ → α → Option σ} {I : σ → Prop} {s s' : σ}
    (hr : Reachable step s s') (hs : I s)
    (hstep : ∀ s a s', I s → step s a = some s' → I s') : I s' := by
  obtain ⟨as, h⟩ := hr
  exact exec_inv hstep as s s' hs h

theorem exec_append {σ α : Type} {step : σ → α → Option σ} :
    ∀ (as bs : List α) (s : σ),
      exec step s (as ++ bs) = (exec step s as).bind (fun s' => exec step s' bs) := by
  intro as
  induction as with
  | nil => intro bs s; simp [exec]
  | cons a as ih =>
    intro bs s
    simp only [List.cons_append, exec]
    cases step s a with
    | none => simp
    | some s1 => simpa using ih bs s1

theorem Reachable.refl {σ α : Type} {step : σ → α → Option σ} (s : σ) : Reachable step s s :=
  ⟨[], rfl⟩

theorem Reachable.trans {σ α : Type} {step : σ → α → Option σ} {a b c : σ}
    (h1 : Reachable step a b) (h2 : Reachable step b c) : Reachable step a c := by
  obtain ⟨as, ha⟩ := h1
  obtain ⟨bs, hb⟩ := h2
  exact ⟨as ++ bs, by simp [exec_append, ha, hb]⟩

theorem Reachable.step {σ α : Type} {st : σ → α → Option σ} {s s' : σ} (a : α)
    (h : st s a = some s') : Reachable st s s' := ⟨[a], by simp [exec, h]⟩

end Gears
