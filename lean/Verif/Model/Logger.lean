import Mathlib.Data.Int.Order.Basic

/-!
# The logger (src/thts_logger.cpp, src/algorithms/uct/uct_logger.cpp, src/algorithms/ments/ments_logger.cpp)

Times and durations are integers (clock ticks); `int` is unbounded.
-/

namespace Verif.Log

/-- `LoggerEntry` (include/thts_logger.h:22-24). -/
structure Entry where
  runtime : Int
  visits : Int
  deriving DecidableEq, Repr

/-- `UctLoggerEntry`, `MentsLoggerEntry` and `DBMentsLoggerEntry` (uct_logger.h:27-29, ments_logger.h:27-29, dbments_logger.h:21-22):
`num_backups` and the value or values. -/
structure FullEntry (R : Type) where
  runtime : Int
  visits : Int
  backups : Int
  values : List R
  deriving DecidableEq, Repr

/-- Storing one in `entries`, a `vector<LoggerEntry>` (thts_logger.h:75), copies the `LoggerEntry` part only. -/
def FullEntry.slice {R : Type} (e : FullEntry R) : Entry := { runtime := e.runtime, visits := e.visits }

/-- `ThtsLogger` (include/thts_logger.h:73-84); `none` is the largest `double`, a time that is never reached. -/
structure Logger where
  entries : List Entry
  /-- `prior_runtime` -/
  prior : Int
  /-- `start_time` -/
  start : Int
  /-- `trials_completed` -/
  trials : Int
  trialsDelta : Int
  /-- `last_log_num_trials` -/
  last : Int
  runtimeDelta : Option Int
  /-- `next_log_runtime_threshold` -/
  threshold : Option Int
  deriving DecidableEq, Repr

/-- Constructor (thts_logger.cpp:28-31).  It leaves `trials_completed`, `last_log_num_trials`, `start_time` and
`next_log_runtime_threshold` uninitialised: they have arbitrary values. -/
def newLogger (start trials last : Int) (threshold : Option Int) : Logger :=
  { entries := [], prior := 0, start := start, trials := trials, trialsDelta := 2147483647, last := last, runtimeDelta := none,
    threshold := threshold }

/-- `set_trials_delta` (thts_logger.cpp:33-35). -/
def Logger.setTrialsDelta (L : Logger) (d : Int) : Logger := { L with trialsDelta := d }

/-- `set_runtime_delta` (thts_logger.cpp:37-39). -/
def Logger.setRuntimeDelta (L : Logger) (d : Int) : Logger := { L with runtimeDelta := some d }

/-- `add_origin_entry` (thts_logger.cpp:45-49). -/
def Logger.addOrigin (L : Logger) : Logger := { L with entries := L.entries ++ [⟨0, 0⟩] }

/-- `reset_start_time` (thts_logger.cpp:51-55). -/
def Logger.resetStart (L : Logger) (now : Int) : Logger := { L with start := now, last := 0, threshold := L.runtimeDelta }

/-- `get_current_total_runtime` (thts_logger.cpp:57-60). -/
def Logger.total (L : Logger) (now : Int) : Int := L.prior + (now - L.start)

/-- `trial_completed` (thts_logger.cpp:62-64). -/
def Logger.trialCompleted (L : Logger) : Logger := { L with trials := L.trials + 1 }

/-- First half of `should_log` (thts_logger.cpp:68-71). -/
def Logger.checkTrials (L : Logger) : Bool × Logger :=
  if L.last + L.trialsDelta ≤ L.trials then (true, { L with last := L.trials }) else (false, L)

/-- Second half of `should_log` (thts_logger.cpp:72-75). -/
def Logger.checkTime (L : Logger) (now : Int) : Bool × Logger :=
  match L.threshold with
  | none => (false, L)
  | some x =>
    if x ≤ L.total now then (true, { L with threshold := L.runtimeDelta.map (x + ·) }) else (false, L)

/-- `should_log` (thts_logger.cpp:66-77). -/
def Logger.shouldLog (L : Logger) (now : Int) : Bool × Logger :=
  let r1 := L.checkTrials
  let r2 := r1.2.checkTime now
  (r1.1 || r2.1, r2.2)

/-- `log` (thts_logger.cpp:79-83). -/
def Logger.log (L : Logger) (now visits : Int) : Logger := { L with entries := L.entries ++ [⟨L.total now, visits⟩] }

/-- `UctLogger::log`, `MentsLogger::log` and `DBMentsLogger::log` (uct_logger.cpp:44-51, ments_logger.cpp:44-51,
dbments_logger.cpp:47-55). -/
def Logger.logFull {R : Type} (L : Logger) (now visits backups : Int) (values : List R) : Logger :=
  { L with entries := L.entries ++ [FullEntry.slice ⟨L.total now, visits, backups, values⟩] }

/-- `add_origin_entry` of the same three (uct_logger.cpp:36-42, ments_logger.cpp:36-42, dbments_logger.cpp:38-45); `zeros` are the zero
values. -/
def Logger.addOriginFull {R : Type} (L : Logger) (zeros : List R) : Logger :=
  { L with entries := L.entries ++ [FullEntry.slice ⟨0, 0, 0, zeros⟩] }

/-- `update_prior_runtime` (thts_logger.cpp:85-88). -/
def Logger.updatePrior (L : Logger) (now : Int) : Logger := { L with prior := L.prior + (now - L.start) }

/-- What `try_log` does with the logger (thts.cpp:268-279); `last` says whether `trials_completed == num_trials`.  The clock is taken to
stand still during the block. -/
def Logger.tryLog (L : Logger) (now visits : Int) (last : Bool) : Logger :=
  let r := L.trialCompleted.shouldLog now
  let L1 := if r.1 then r.2.log now visits else r.2
  if last then L1.updatePrior now else L1

/-- What `run_trials` does with the logger (thts.cpp:354-360). -/
def Logger.beginRun (L : Logger) (now : Int) : Logger :=
  (if L.entries.length = 0 then L.addOrigin else L).resetStart now

/-! ## Output -/

/-- A cell of the output. -/
inductive Cell (R : Type) where
  | text (s : String)
  | int (i : Int)
  | num (x : R)
  deriving DecidableEq, Repr

/-- `LoggerEntry::write_header_to_ostream` and `write_to_ostream` (thts_logger.cpp:12-20). -/
def entryHeader {R : Type} : List (Cell R) := [.text "runtime", .text "num_visits"]
def entryRow {R : Type} (e : Entry) : List (Cell R) := [.int e.runtime, .int e.visits]

/-- `write_header_to_ostream` and `write_to_ostream` of the other entry types (uct_logger.cpp:13-25, ments_logger.cpp:13-25,
dbments_logger.cpp:13-27); `names` is `["avg_return"]`, `["soft_value"]` or `["soft_value", "dp_value"]`.  They are never called: see
`Logger.write`. -/
def fullHeader {R : Type} (names : List String) : List (Cell R) :=
  [.text "runtime", .text "num_visits", .text "num_backups"] ++ names.map .text
def fullRow {R : Type} (e : FullEntry R) : List (Cell R) := [.int e.runtime, .int e.visits, .int e.backups] ++ e.values.map .num

/-- `write_to_ostream` (thts_logger.cpp:90-103): rows of the table.  The elements of `entries` are `LoggerEntry` objects, so that the
virtual calls reach the functions of `LoggerEntry`. -/
def Logger.write {R : Type} (L : Logger) : List (List (Cell R)) :=
  if L.entries.length = 0 then [] else entryHeader :: L.entries.map entryRow

end Verif.Log
