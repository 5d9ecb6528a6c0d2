import Verif.Props.Pool
import Verif.Props.Eval

/-!
# Property C115: the number of threads

`exec n` runs a schedule on a pool with `n` worker threads (`Verif.Model.Pool`); histories have the newest event first.
-/

namespace Verif.Pool

/-- The event is the return of `join()` or of a blocking `run_trials`. -/
def Event.isJoined : Event → Bool
  | .joined => true
  | _ => false

theorem empty_step {s s' : St} {l : Label} {e : Option Event} (hw : s.ws = []) (hs : step s l = some (s', e)) :
    s'.ws = [] ∧ ∀ i, e ≠ some (.started i) := by
  cases l <;> simp only [step] at hs
  case tick => simp at hs; obtain ⟨rfl, rfl⟩ := hs; exact ⟨hw, by simp⟩
  case worker i => simp [hw] at hs
  case look i => simp [hw] at hs
  case spuriousW i => simp [hw] at hs
  case spuriousC =>
    split at hs
    · simp at hs; obtain ⟨rfl, rfl⟩ := hs; exact ⟨hw, by simp⟩
    · simp at hs
  case client =>
    unfold stepClient at hs
    split at hs
    all_goals first
      | (simp at hs; done)
      | (simp at hs; obtain ⟨rfl, rfl⟩ := hs; exact ⟨by simp [St.notifyAll, hw], by simp⟩)
      | (split at hs
         all_goals first
           | (simp at hs; done)
           | (simp at hs; obtain ⟨rfl, rfl⟩ := hs; exact ⟨hw, by simp⟩))
  case call n lim b =>
    split at hs
    · simp at hs; obtain ⟨rfl, rfl⟩ := hs; exact ⟨hw, by simp⟩
    · simp at hs
  case join =>
    split at hs
    · simp at hs; obtain ⟨rfl, rfl⟩ := hs; exact ⟨hw, by simp⟩
    · simp at hs
  case swap n =>
    split at hs
    · split at hs <;> (simp at hs; obtain ⟨rfl, rfl⟩ := hs; exact ⟨hw, by simp⟩)
    · simp at hs
  case dtor =>
    split at hs
    · simp at hs; obtain ⟨rfl, rfl⟩ := hs; exact ⟨by simp [St.notifyAll, hw], by simp⟩
    · simp at hs

theorem empty_run {ls : List Label} : ∀ {s s' : St} {h h' : List Event}, s.ws = [] → (∀ i, .started i ∉ h) →
    execFrom s h ls = some (s', h') → s'.ws = [] ∧ ∀ i, .started i ∉ h' := by
  induction ls with
  | nil =>
    intro s s' h h' hw hh hx
    simp [execFrom] at hx
    obtain ⟨rfl, rfl⟩ := hx
    exact ⟨hw, hh⟩
  | cons l ls ih =>
    intro s s' h h' hw hh hx
    simp only [execFrom] at hx
    split at hx
    · rename_i s1 e hst
      obtain ⟨g1, g2⟩ := empty_step hw hst
      refine ih g1 (fun i hm => ?_) hx
      rcases List.mem_append.1 hm with hm | hm
      · cases e with
        | none => simp at hm
        | some e => simp at hm; exact g2 i (by rw [hm])
      · exact hh i hm
    · simp at hx

/-- C115 is false.  A pool that was constructed with zero threads accepts calls and never starts a trial. -/
theorem c115_no_trial_false (ls : List Label) (s : St) (h : List Event) (hx : exec 0 ls = some (s, h)) (i : Nat) : .started i ∉ h :=
  (empty_run (by simp [init]) (by simp) hx).2 i

/-- Inside a blocking call. -/
def Blocked (s : St) : Prop :=
  s.ws = [] ∧ s.limit = none ∧ 0 < s.remaining ∧ (s.cl = .publish true ∨ s.cl = .joinWant ∨ s.cl = .joinChk ∨ s.cl = .joinWait ∨ s.cl = .joinWoken)

theorem blocked_step {s s' : St} {l : Label} {e : Option Event} (hb : Blocked s) (hs : step s l = some (s', e)) :
    Blocked s' ∧ e = none := by
  obtain ⟨hw, hl, hr, hc⟩ := hb
  have hwl : s.workLeft = true := by
    have : ¬ s.remaining ≤ 0 := by omega
    simp [St.workLeft, this, St.expired, hl]
  have hni : s.cl ≠ .idle := by rcases hc with h | h | h | h | h <;> simp [h]
  cases l <;> simp only [step] at hs
  case tick => simp at hs; obtain ⟨rfl, rfl⟩ := hs; exact ⟨⟨hw, hl, hr, hc⟩, rfl⟩
  case worker i => simp [hw] at hs
  case look i => simp [hw] at hs
  case spuriousW i => simp [hw] at hs
  case spuriousC =>
    split at hs
    · simp at hs; obtain ⟨rfl, rfl⟩ := hs; exact ⟨⟨hw, hl, hr, by simp⟩, rfl⟩
    · simp at hs
  case client =>
    unfold stepClient at hs
    rcases hc with h | h | h | h | h <;> simp only [h] at hs
    · simp at hs; obtain ⟨rfl, rfl⟩ := hs; exact ⟨⟨by simp [St.notifyAll, hw], hl, hr, by simp⟩, rfl⟩
    · split at hs
      · simp at hs; obtain ⟨rfl, rfl⟩ := hs; exact ⟨⟨hw, hl, hr, by simp⟩, rfl⟩
      · simp at hs
    · rw [hwl] at hs
      simp at hs; obtain ⟨rfl, rfl⟩ := hs; exact ⟨⟨hw, hl, hr, by simp⟩, rfl⟩
    · simp at hs
    · split at hs
      · simp at hs; obtain ⟨rfl, rfl⟩ := hs; exact ⟨⟨hw, hl, hr, by simp⟩, rfl⟩
      · simp at hs
  case call n lim b => simp [hni] at hs
  case join => simp [hni] at hs
  case swap n => simp [hni] at hs
  case dtor => simp [hni] at hs

theorem blocked_run {ls : List Label} : ∀ {s s' : St} {h h' : List Event}, Blocked s → execFrom s h ls = some (s', h') → Blocked s' ∧ h' = h := by
  induction ls with
  | nil =>
    intro s s' h h' hb hx
    simp [execFrom] at hx
    obtain ⟨rfl, rfl⟩ := hx
    exact ⟨hb, rfl⟩
  | cons l ls ih =>
    intro s s' h h' hb hx
    simp only [execFrom] at hx
    split at hx
    · rename_i s1 e hst
      obtain ⟨g1, rfl⟩ := blocked_step hb hst
      exact ih g1 hx
    · simp at hx

/-- C115 is false.  With zero threads a blocking `run_trials` of at least one trial without time limit never returns, whatever happens
afterwards: the client stays inside the call and nothing observable happens. -/
theorem c115_zero_threads_false (ls : List Label) (s : St) (h : List Event) (hx : exec 0 ls = some (s, h)) (n : Int) (hn : 0 < n)
    (ls' : List Label) (s' : St) (h' : List Event) (hx' : execFrom s h (.call n none true :: ls') = some (s', h')) :
    s'.cl.busy = true ∧ h' = .called n none :: h := by
  have hw := (empty_run (by simp [init]) (by simp) hx).1
  simp only [execFrom, step] at hx'
  split at hx'
  · rename_i s1 e hst
    split at hst
    · simp at hst
      obtain ⟨rfl, rfl⟩ := hst
      have hb : Blocked { s with cl := .publish true, remaining := n, start := s.now, limit := none } := ⟨hw, rfl, hn, .inl rfl⟩
      obtain ⟨g1, g2⟩ := blocked_run hb hx'
      refine ⟨?_, by simpa using g2⟩
      rcases g1.2.2.2 with g | g | g | g | g <;> simp [g, CPc.busy]
    · simp at hst
  · simp at hx'

example : ∃ s h, exec 0 [.call 5 none true, .client, .client, .client, .tick, .spuriousC, .client, .client] = some (s, h) ∧ s.cl.busy = true ∧
    h = [.called 5 none] := by
  refine ⟨_, _, rfl, ?_⟩; decide

theorem asleep_run {ls : List Label} : ∀ {s s' : St} {h h' : List Event}, s.ws = [] → s.cl = .joinWait → ls.countP Label.isSpurious = 0 →
    execFrom s h ls = some (s', h') → s'.cl = .joinWait ∧ h' = h := by
  induction ls with
  | nil =>
    intro s s' h h' _ hc _ hx
    simp [execFrom] at hx
    obtain ⟨rfl, rfl⟩ := hx
    exact ⟨hc, rfl⟩
  | cons l ls ih =>
    intro s s' h h' hw hc hsp hx
    simp only [List.countP_cons] at hsp
    have hsp2 : l.isSpurious = false := by cases hl : l.isSpurious <;> simp [hl] at hsp ⊢
    simp only [execFrom] at hx
    split at hx
    · rename_i s1 e hst
      have : s1.ws = [] ∧ s1.cl = .joinWait ∧ e = none := by
        cases l <;> simp only [Label.isSpurious] at hsp2 <;> simp only [step] at hst
        case tick => simp at hst; obtain ⟨rfl, rfl⟩ := hst; exact ⟨hw, hc, rfl⟩
        case worker i => simp [hw] at hst
        case look i => simp [hw] at hst
        case client => simp [stepClient, hc] at hst
        all_goals first
          | (simp [hc] at hst; done)
          | (simp at hsp2; done)
      obtain ⟨g1, g2, rfl⟩ := this
      exact ih g1 g2 (by omega) hx
    · simp at hx

/-- C115 is false.  With a time limit it does not return either, once the client has gone to sleep before the deadline, however much time passes:
only a spurious wake-up could end the call. -/
theorem c115_time_limit_false (n : Int) (hn : 0 < n) (L : Nat) (ls' : List Label) (s' : St) (h' : List Event)
    (hsp : ls'.countP Label.isSpurious = 0) (hx : exec 0 ([.call n (some (L + 1)) true, .client, .client, .client] ++ ls') = some (s', h')) :
    s'.cl = .joinWait ∧ h' = [.called n (some (L + 1))] := by
  have hr : ¬ n ≤ 0 := by omega
  simp [exec, execFrom, step, stepClient, init, St.notifyAll, St.workLeft, St.expired, hr] at hx
  exact asleep_run rfl rfl hsp hx

example : ∃ s h, exec 0 ([.call 5 (some 1) true, .client, .client, .client] ++ List.replicate 100 .tick) = some (s, h) ∧ s.cl = .joinWait ∧
    s.expired = true := by
  refine ⟨_, _, rfl, ?_⟩; decide

/-- C115.  With zero threads the calls that ask for no trial return. -/
theorem c115_nothing_asked_partial (n : Int) (hn : n ≤ 0) (lim : Option Nat) :
    ∃ s, exec 0 [.call n lim true, .client, .client, .client] = some (s, [.joined, .called n lim]) ∧ s.cl = .idle := by
  simp [exec, execFrom, step, stepClient, init, St.notifyAll, St.workLeft, hn]

/-- C115.  With at least one thread, a call without time limit is never stuck and returns after boundedly many steps of the program (plus three
for each spurious wake-up). -/
theorem c115_some_threads_partial (k : Nat) (hk : 0 < k) (ls : List Label) (s : St) (h : List Event) (hx : exec k ls = some (s, h))
    (hb : s.cl.busy = true) (hl : s.limit = none) :
    (∃ l r, l.isProgress = true ∧ step s l = some r) ∧
    ∃ B, ∀ ls' s' h', execFrom s h ls' = some (s', h') → B + 3 * ls'.countP Label.isSpurious < ls'.countP Label.isProgress →
      ∃ l1 l2 s1 h1, ls' = l1 ++ l2 ∧ execFrom s h l1 = some (s1, h1) ∧ s1.cl = .idle :=
  ⟨c04_never_stuck k hk ls s h hx hb (c04_unlimited_not_expired s hl), c04_bounded_wait k ls s h hx⟩

end Verif.Pool

namespace Verif.Eval

open Verif.Search

variable {S A R X Y : Type} [DecidableEq S] [DecidableEq A] [AddCommMonoid R] {c : ECfg S A R X Y} {p : Policy} {old : List R} {es : EState S R}
  {h : List (EEvent S A R)}

/-- C115 is false.  With zero threads `run_rollouts` returns at once, whatever the number of rollouts asked for, and nothing is ever sampled. -/
theorem c115_rollouts_false (hT : c.threads = 0) : allDone c (start c p old) ∧ ∀ es h, EReach c p old es h → es.returns = old := by
  refine ⟨⟨rfl, by simp [start, hT]⟩, fun es h hr => ?_⟩
  obtain ⟨k1, k2, _, _, k5⟩ := c47_each_once hr
  have hf : finished h = [] := by
    cases hf : finished h with
    | nil => rfl
    | cons x l =>
      obtain ⟨t, i⟩ := x
      have := (k5 t i (by rw [hf]; simp)).2.2.1
      omega
  have hr0 : results h = [] := by
    rw [hf] at k2
    exact List.eq_nil_of_length_eq_zero k2
  rw [k1, hr0, List.append_nil]

end Verif.Eval
