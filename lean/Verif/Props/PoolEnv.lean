import Verif.Model.PoolEnv
import Verif.Spec.PoolEnv
import Verif.Props.Pool

/-!
# C119: a pool only works with a manager and a root node
-/

namespace Verif.Pool

theorem stepWorker_env {s s' : St} {i : Nat} {p : WPc} {e : Option Event} (hs : stepWorker s i p = some (s', e)) :
    s'.env = s.env ∧ (∀ k, e ≠ some (.swapped k)) ∧ ∀ j k, e ≠ some (.observed j k) := by
  cases p <;> simp only [stepWorker] at hs <;> (try split at hs) <;>
    first
    | (simp at hs; done)
    | (simp only [Option.some.injEq, Prod.mk.injEq] at hs
       obtain ⟨rfl, rfl⟩ := hs
       exact ⟨rfl, by simp, by simp⟩)

theorem stepClient_env {s s' : St} {e : Option Event} (hs : stepClient s = some (s', e)) :
    s'.env = s.env ∧ (∀ k, e ≠ some (.swapped k)) ∧ ∀ j k, e ≠ some (.observed j k) := by
  unfold stepClient at hs
  split at hs <;> (try split at hs) <;>
    first
    | (simp at hs; done)
    | (simp only [Option.some.injEq, Prod.mk.injEq] at hs
       obtain ⟨rfl, rfl⟩ := hs
       exact ⟨rfl, by simp, by simp⟩)

/-- What a step does to the installed environment, and what a trial sees. -/
theorem step_env {s s' : St} {l : Label} {e : Option Event} (hs : step s l = some (s', e)) :
    (∀ j k, e = some (.observed j k) → k = s.env) ∧ (∀ k, e = some (.swapped k) → s'.env = k) ∧
      ((∀ k, e ≠ some (.swapped k)) → s'.env = s.env) := by
  have pack : s'.env = s.env ∧ (∀ k, e ≠ some (.swapped k)) ∧ (∀ j k, e ≠ some (.observed j k)) → _ :=
    fun h => (⟨fun j k he => absurd he (h.2.2 j k), fun k he => absurd he (h.2.1 k), fun _ => h.1⟩ :
      (∀ j k, e = some (.observed j k) → k = s.env) ∧ (∀ k, e = some (.swapped k) → s'.env = k) ∧ ((∀ k, e ≠ some (.swapped k)) → s'.env = s.env))
  cases l <;> simp only [step] at hs
  case worker i =>
    split at hs
    · exact pack (stepWorker_env hs)
    · exact absurd hs (by simp)
  case client => exact pack (stepClient_env hs)
  case look i =>
    split at hs
    · simp only [Option.some.injEq, Prod.mk.injEq] at hs
      obtain ⟨rfl, rfl⟩ := hs
      refine ⟨fun j k he => ?_, fun k he => by simp at he, fun _ => rfl⟩
      simp at he
      exact he.2.symm
    · exact absurd hs (by simp)
  case swap k =>
    split at hs
    · split at hs
      · simp only [Option.some.injEq, Prod.mk.injEq] at hs
        obtain ⟨rfl, rfl⟩ := hs
        exact pack ⟨rfl, by simp, by simp⟩
      · simp only [Option.some.injEq, Prod.mk.injEq] at hs
        obtain ⟨rfl, rfl⟩ := hs
        refine ⟨fun j k he => by simp at he, fun k he => ?_, fun h => absurd rfl (h k)⟩
        simpa using he
    · exact absurd hs (by simp)
  all_goals
    (try split at hs) <;>
    first
    | (simp at hs; done)
    | (simp only [Option.some.injEq, Prod.mk.injEq] at hs
       obtain ⟨rfl, rfl⟩ := hs
       exact pack ⟨rfl, by simp, by simp⟩)

/-- Every read so far saw what was installed at that time. -/
def ReadsCurrent (h : List Event) : Prop := ∀ i e later before, h = later ++ .observed i e :: before → e = installed before

theorem reads_exec : ∀ (ls : List Label) {s s' : St} {h h' : List Event}, execFrom s h ls = some (s', h') → s.env = installed h → ReadsCurrent h →
    s'.env = installed h' ∧ ReadsCurrent h' := by
  intro ls
  induction ls with
  | nil =>
    intro s s' h h' hx he hr
    simp only [execFrom, Option.some.injEq, Prod.mk.injEq] at hx
    obtain ⟨rfl, rfl⟩ := hx
    exact ⟨he, hr⟩
  | cons l ls ih =>
    intro s s' h h' hx he hr
    simp only [execFrom] at hx
    split at hx
    case h_2 => exact absurd hx (by simp)
    case h_1 s1 e hs =>
      obtain ⟨h1, h2, h3⟩ := step_env hs
      refine ih hx ?_ ?_
      · cases e with
        | none => rw [h3 (by simp), he]; rfl
        | some e =>
          cases e
          case swapped k => exact h2 k rfl
          all_goals (rw [h3 (by simp), he]; rfl)
      · cases e with
        | none => exact hr
        | some e =>
          intro i k later before heq
          cases later with
          | nil =>
            simp only [Option.toList_some, List.singleton_append, List.nil_append, List.cons.injEq] at heq
            obtain ⟨rfl, rfl⟩ := heq
            rw [h1 i k rfl, he]
          | cons a later =>
            simp only [Option.toList_some, List.cons_append, List.cons.injEq] at heq
            exact hr i k later before heq.2

/-- C119.  Whenever a trial reads the pool's manager and root node, it gets those last installed. -/
theorem c119_current (n : Nat) (ls : List Label) (s : St) (later before : List Event) (i e : Nat)
    (hx : exec n ls = some (s, later ++ .observed i e :: before)) : e = installed before :=
  (reads_exec ls hx rfl (fun _ _ later _ h => by cases later <;> simp at h)).2 i e later before rfl

/-- C119.  The constructor throws exactly if the manager or the root node is null. -/
theorem c119_constructor (env : Nat → Pointers) (n : Nat) : construct env n = none ↔ (env 0).manager = none ∨ (env 0).root = none := by
  unfold construct Pointers.null
  cases h1 : (env 0).manager <;> cases h2 : (env 0).root <;> simp

/-- **False as documented** (include/thts.h:92-95): with a manager but no root node the constructor throws instead of making a root node. -/
theorem c119_documented_false (n m : Nat) : construct (fun _ => ⟨some m, none⟩) n = none := rfl

/-- **C119 is false.**  Whatever null pointers `e` `set_new_env` is given between two calls, it accepts them, and the next trial dereferences them. -/
theorem c119_null_false (env : Nat → Pointers) (h0 : (env 0).null = false) (e : Nat) (hnull : (env e).null = true) :
    ∃ ls s h, life env 1 ls = some (s, h) ∧ swapsOnlyWhenSettled h = true ∧ (∃ i, .observed i e ∈ h) ∧ readOutcome env e = .nullDereference := by
  refine ⟨[.swap e] ++ List.replicate 4 (.worker 0) ++ [.call 1 none true, .client] ++ List.replicate 3 (.worker 0) ++ [.look 0], ?_⟩
  have hl : ∀ ls, life env 1 ls = exec 1 ls := by
    intro ls
    simp [life, construct, h0, exec]
  simp only [hl]
  exact ⟨_, _, rfl, rfl, ⟨0, List.Mem.head _⟩, by simp [readOutcome, hnull]⟩

/-- **C119, general form of the failure.**  From the moment null pointers are installed until others are, every read of every trial dereferences them. -/
theorem c119_every_read_false (env : Nat → Pointers) (n : Nat) (ls : List Label) (s : St) (later before : List Event) (i e : Nat)
    (hx : life env n ls = some (s, later ++ .observed i e :: before)) (hnull : (env (installed before)).null = true) :
    readOutcome env e = .nullDereference := by
  unfold life at hx
  split at hx
  · exact absurd hx (by simp)
  case h_2 s0 hc =>
    unfold construct at hc
    split at hc
    · exact absurd hc (by simp)
    · simp only [Option.some.injEq] at hc
      subst hc
      rw [c119_current n ls s later before i e hx]
      simp [readOutcome, hnull]

/-- C119, what holds: if `set_new_env` is never given a null pointer, no trial dereferences one.  Missing: the code does not test this. -/
theorem c119_no_null_partial (env : Nat → Pointers) (n : Nat) (ls : List Label) (s : St) (h : List Event) (hx : life env n ls = some (s, h))
    (hsw : ∀ e, .swapped e ∈ h → (env e).null = false) (i e : Nat) (ho : .observed i e ∈ h) : readOutcome env e = .fine := by
  unfold life at hx
  split at hx
  · exact absurd hx (by simp)
  case h_2 s0 hc =>
    unfold construct at hc
    split at hc
    · exact absurd hc (by simp)
    case isFalse h0 =>
      simp only [Option.some.injEq] at hc
      subst hc
      obtain ⟨later, before, rfl⟩ := List.append_of_mem ho
      have hc := c119_current n ls s later before i e hx
      have hi : ∀ b : List Event, (∀ e, .swapped e ∈ b → (env e).null = false) → (env (installed b)).null = false := by
        intro b
        induction b with
        | nil => intro _; simpa [installed] using h0
        | cons a b ih =>
          intro hb
          cases a
          case swapped k => exact hb k (by simp)
          all_goals exact ih fun e he => hb e (by simp [he])
      have := hi before fun k hk => hsw k (by simp [hk])
      rw [← hc] at this
      simp [readOutcome, this]

/-- Non-vacuity: a pool that is given another environment and reads it. -/
example : ∃ s h, life (fun e => ⟨some e, some e⟩) 1 ([.swap 3] ++ List.replicate 4 (.worker 0) ++ [.call 1 none false, .client] ++
    List.replicate 3 (.worker 0) ++ [.look 0]) = some (s, h) ∧ .swapped 3 ∈ h ∧ .observed 0 3 ∈ h := by
  refine ⟨_, _, rfl, ?_⟩; decide

end Verif.Pool
