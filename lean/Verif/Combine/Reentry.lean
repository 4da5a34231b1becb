/-!
# Re-entrant emission: which mutexes are held while the subscriber's callback runs (C69)

One thread.  An emission into a source runs through the operators between that source and the subscriber; each of them
locks and unlocks its mutexes (`rpp::utils::value_with_mutex`, utils/utils.hpp 258-311, a non-recursive `std::mutex` held by
`pointer_under_lock` for the lifetime of that object) and calls the next one; at the end the subscriber's callback runs,
which may emit into any source again.  Locking a mutex that the same thread holds never returns (undefined behaviour for
`std::mutex`; in practice a deadlock): the state is `Stuck`.  Values are not modelled here, only control flow and locks.
-/

namespace Rpp.Emit

/-- What an operator's `on_next` does, as far as locks are concerned. Mutexes are numbered per operator. (operators/zip.hpp 50-56, with_latest_from.hpp 101-113, utils/utils.hpp 258-311, subjects/details/subject_state.hpp 112-131) -/
inductive Instr where
  | lock (m : Nat)
  | unlock (m : Nat)
  | down               -- call the next observer's on_next / on_completed
deriving DecidableEq, Repr

/-- The ways into an operator: the observers it subscribes to its sources with.  `deliver` : whether this value makes the
operator emit (zip, combine_latest, with_latest_from). (operators/zip.hpp 50-56, with_latest_from.hpp 101-113, utils/utils.hpp 258-311, subjects/details/subject_state.hpp 112-131) -/
inductive Port where
  | plain                               -- map, filter, take, …: no mutex
  | merge
  | zip (deliver : Bool)
  | combineLatest (deliver : Bool)
  | latestMain (n : Nat) (deliver : Bool)  -- with_latest_from, the main source, `n` other sources
  | latestOther (i : Nat)               -- with_latest_from, the `i`-th other source
  | takeUntil
  | takeUntilOther
  | switchInner
  | concatInner
  | timeout
  | windowToggle (n : Nat)              -- `n` open windows
  | subject (n : Nat)                   -- publish_subject with `n` observers
  | serializedSubject (n : Nat)
deriving DecidableEq, Repr

/-- The body of `on_next` for each port; mutex `0` guards the downstream observer.
- `merge`: operators/merge.hpp 106-109, the temporary `pointer_under_lock` lives until the end of the call;
- `zip`: operators/zip.hpp 50-56; `combineLatest`: operators/combine_latest.hpp 48-55: the lock is a local variable;
- `latestMain`: operators/with_latest_from.hpp 101-113, `scoped_lock` on the values (mutexes `1 … n`) is released before the
  observer is called under its own mutex; `latestOther`: 66-70;
- `takeUntil`: operators/take_until.hpp 76-81, after `is_disposed` 61 (also under the mutex); `takeUntilOther`: 65-70;
- `switchInner`: operators/switch_on_next.hpp 57-60; `concatInner`: operators/concat.hpp 145-148;
- `timeout`: operators/timeout.hpp 82-87; `windowToggle`: operators/window_toggle.hpp 157-162;
- `subject`: subjects/details/subject_state.hpp 112-131, `m_serialized_mutex` being a `none_mutex`; mutex `0` is `m_mutex`,
  mutex `1` is `m_serialized_mutex`. -/
def Port.code : Port → List Instr
  | .plain => [.down]
  | .merge => [.lock 0, .down, .unlock 0]
  | .zip d => [.lock 0] ++ (if d then [.down] else []) ++ [.unlock 0]
  | .combineLatest d => [.lock 0] ++ (if d then [.down] else []) ++ [.unlock 0]
  | .latestMain n d =>
    (List.range n).map (fun i => .lock (i + 1)) ++ (List.range n).map (fun i => .unlock (i + 1)) ++
      (if d then [.lock 0, .down, .unlock 0] else [])
  | .latestOther i => [.lock (i + 1), .unlock (i + 1)]
  | .takeUntil => [.lock 0, .unlock 0, .lock 0, .down, .unlock 0]
  | .takeUntilOther => [.lock 0, .unlock 0, .lock 0, .down, .unlock 0]
  | .switchInner => [.lock 0, .down, .unlock 0]
  | .concatInner => [.lock 0, .down, .unlock 0]
  | .timeout => [.lock 0, .down, .unlock 0]
  | .windowToggle n => [.lock 0] ++ List.replicate n .down ++ [.unlock 0]
  | .subject n => [.lock 0, .unlock 0] ++ List.replicate n .down
  | .serializedSubject n => [.lock 0, .unlock 0, .lock 1] ++ List.replicate n .down ++ [.unlock 1]

/-- The operators an emission passes, from the source to the subscriber: operator instance and port. -/
abbrev Path := List (Nat × Port)

/-- A mutex: operator instance and number. -/
abbrev Mutex := Nat × Nat

/-- The world: the way the `n`-th emission of all takes if it is into source `s` (the operators' states decide what they
deliver), and what the subscriber's `k`-th callback does: emit into these sources, in this order. -/
structure World where
  path : Nat → Nat → Path
  user : Nat → List Nat

/-- Activation records: an operator's `on_next` with the rest of its body, the locks it holds and the rest of the
path; a callback (or the outermost code) with what it still has to emit. (operators/zip.hpp 50-56, with_latest_from.hpp 101-113, utils/utils.hpp 258-311, subjects/details/subject_state.hpp 112-131) -/
inductive Frame where
  | op (inst : Nat) (code : List Instr) (mine : List Nat) (rest : Path)
  | cb (id : Nat) (todo : List Nat)
deriving DecidableEq, Repr

/-- Events of the log; no counterpart in /repo. -/
inductive Ev where
  | emit (s : Nat)
  | enter (k : Nat)    -- the k-th callback is entered
  | leave (k : Nat)
deriving DecidableEq, Repr

/-- The thread's stack, the numbers of emissions made and the log (operators/zip.hpp 50-56, with_latest_from.hpp 101-113, utils/utils.hpp 258-311, subjects/details/subject_state.hpp 112-131 run on that stack). -/
structure St where
  /-- innermost first -/
  stack : List Frame
  emissions : Nat := 0
  callbacks : Nat := 0
  log : List Ev := []

/-- The mutexes a frame holds; no counterpart in /repo. -/
def Frame.held : Frame → List Mutex
  | .op i _ mine _ => mine.map (fun m => (i, m))
  | .cb _ _ => []

/-- The mutexes the thread holds; no counterpart in /repo. -/
def held (st : List Frame) : List Mutex := st.flatMap Frame.held

/-- The next thing to do is to lock a mutex this very thread holds. -/
def Stuck (s : St) : Prop := ∃ i m code mine rest fs, s.stack = .op i (.lock m :: code) mine rest :: fs ∧ (i, m) ∈ held s.stack

variable (w : World)

/-- Go on along a path: into the next operator, or into the subscriber's callback. (operators/zip.hpp 50-56, with_latest_from.hpp 101-113, utils/utils.hpp 258-311, subjects/details/subject_state.hpp 112-131) -/
def follow (s : St) (below : List Frame) : Path → St
  | [] => { s with
      stack := .cb s.callbacks (w.user s.callbacks) :: below
      callbacks := s.callbacks + 1
      log := s.log ++ [.enter s.callbacks] }
  | (i, p) :: rest => { s with stack := .op i p.code [] rest :: below }

/-- One step of the thread. The outermost code is the frame at the bottom of the stack. (operators/zip.hpp 50-56, with_latest_from.hpp 101-113, utils/utils.hpp 258-311, subjects/details/subject_state.hpp 112-131) -/
def step (s : St) : St :=
  match s.stack with
  | [] => s
  | .op _ [] _ _ :: fs => { s with stack := fs }
  | .op i (.lock m :: code) mine rest :: fs =>
    if (i, m) ∈ held s.stack then s else { s with stack := .op i code (m :: mine) rest :: fs }
  | .op i (.unlock m :: code) mine rest :: fs => { s with stack := .op i code (mine.erase m) rest :: fs }
  | .op i (.down :: code) mine rest :: fs => follow w s (.op i code mine rest :: fs) rest
  | [.cb _ []] => s
  | .cb k [] :: fs => { s with stack := fs, log := s.log ++ [.leave k] }
  | .cb k (src :: todo) :: fs =>
    follow w { s with emissions := s.emissions + 1, log := s.log ++ [.emit src] } (.cb k todo :: fs)
      (w.path src s.emissions)

/-- The state after `n` steps, when the outermost code emits into the sources `prog`. -/
def run (prog : List Nat) : Nat → St
  | 0 => { stack := [.cb 0 prog], callbacks := 1 }
  | n + 1 => step w (run prog n)

end Rpp.Emit
