/-!
# The asio strand scheduler: the model

/repo/src/extensions/rppasio/rppasio/schedulers/strand.hpp, one worker.

asio is the environment.  What the model assumes of it (its documented behaviour): handlers of one strand never run
concurrently, and `post`ed ones run in the order of posting; the handler of a timer is given to the strand some time after the
timer expired, in no particular order with respect to other timers; `io_context::run()` is called by any number of threads,
any of which may run the next handler.  Timers are never cancelled (nothing in the file does), so `ec` (68) is never set.

Simplifications: the clock and all durations are unbounded integers; handlers (observers) are numbered; what a scheduled
function does is left to the caller: while it runs the labels decide what it schedules and how it ends.  Other workers of the
same `io_context` have strands of their own and share nothing with this one; they are not modelled.
-/

namespace Rpp.Strand

/-- schedulers/fwd.hpp 36-78: the three ways to ask for another run. -/
inductive Delay where
  | fromNow (d : Int)
  | fromThis (d : Int)
  | to (tp : Int)
deriving DecidableEq, Repr

/-- How a scheduled function ends: `nullopt`, some delay, an exception. (rppasio/schedulers/strand.hpp 30-140) -/
inductive Res where
  | done
  | again (w : Delay)
  | throws
deriving DecidableEq, Repr

/-- How a request waits: `asio::post` (strand.hpp 50), a timer (66-67), the thread's `current_thread` queue (82-88). -/
inductive How where
  | posted | timed | queued
deriving DecidableEq, Repr

/-- What happens, in order. -/
inductive Ev where
  /-- a run of function `id` for handler `h` is asked for, not before `due` -/
  | asked (id h : Nat) (due : Int) (how : How)
  /-- it is not accepted, its handler is disposed of -/
  | refused (id : Nat) (how : How)
  /-- it is given up when its turn comes, its handler is disposed of -/
  | dropped (id : Nat) (how : How)
  /-- `current_thread_queue_guard` passes the request on to the strand (122) -/
  | handed (id : Nat)
  /-- the request went to a `current_thread` queue that is not the guard's -/
  | outer (id : Nat)
  /-- the function is entered on thread `t` at time `at` -/
  | began (id t : Nat) (at' : Int) (how : How)
  /-- the function is left -/
  | ended (id : Nat) (at' : Int) (r : Res)
  /-- the handler's `on_error` is called -/
  | onError (id h : Nat)
  /-- an exception leaves `io_context::run()` -/
  | escaped (id : Nat)
  /-- handler `h` is disposed of -/
  | disposed (h : Nat)
deriving DecidableEq, Repr

/-- A request on its way.  `via`: the function is the wrapper of `process_queue` (124-132) around a schedulable of
`current_thread`, `due` is then also `m_time_point` of that schedulable. -/
structure Job where
  id : Nat
  h : Nat
  due : Int
  how : How
  via : Bool
deriving DecidableEq, Repr

/-- Value of the thread-local `current_thread::get_queue()` (current_thread.hpp 81-85). -/
inductive Tls where
  /-- the guard of a running strand task -/
  | guard
  /-- a `current_thread` loop further up the stack: `io_context::run()` was called from inside a `current_thread` task -/
  | outer
deriving DecidableEq, Repr

/-- A function that is running. `own`: `m_process_on_destruction` (83). (rppasio/schedulers/strand.hpp 30-140) -/
structure Frame where
  job : Job
  tid : Nat
  own : Bool
deriving DecidableEq, Repr

/-- State: the members of the objects of rppasio/schedulers/strand.hpp 30-140, what the running calls are doing, and the log. -/
structure St where
  now : Int := 0
  /-- number of functions scheduled so far -/
  count : Nat := 0
  /-- handlers waiting in the strand -/
  ready : List Job := []
  /-- timers being waited for -/
  timers : List Job := []
  /-- call stack, innermost first -/
  run : List Frame := []
  /-- `m_queue` of the guard (139) -/
  queue : List Job := []
  tls : Nat → Option Tls := fun _ => none
  gone : List Nat := []
  /-- `m_next` of schedulables that left the guard's queue (queue.hpp 239-242: `pop` does not reset it) -/
  link : Nat → Option Nat := fun _ => none
  log : List Ev := []

/-- Log an event; no counterpart in /repo. -/
def St.say (s : St) (e : Ev) : St := { s with log := s.log ++ [e] }

/-- `emplace_impl`, queue.hpp 250-278 (see `Sched.emplace`). -/
def insert (e : Job) : List Job → List Job
  | [] => [e]
  | n :: rest => if e.due < n.due then e :: n :: rest else n :: insert e rest

/-- `state_t::defer`, strand.hpp 44-58. -/
def defer (s : St) (j : Job) : St :=
  if j.h ∈ s.gone then s.say (.refused j.id j.how)
  else { s with ready := s.ready ++ [j] }

/-- `state_t::defer_with_time`, strand.hpp 60-75. -/
def deferWithTime (s : St) (j : Job) : St :=
  if j.h ∈ s.gone then s.say (.refused j.id j.how)
  else { s with timers := s.timers ++ [j] }

/-- `worker_strategy::defer_for`, strand.hpp 156-163. -/
def deferFor (s : St) (h : Nat) (d : Int) : St :=
  let s := { s with count := s.count + 1 }
  let id := s.count
  if d = 0 then
    defer (s.say (.asked id h s.now .posted)) { id, h, due := s.now, how := .posted, via := false }
  else
    deferWithTime (s.say (.asked id h (s.now + d) .timed)) { id, h, due := s.now + d, how := .timed, via := false }

/-- `worker_strategy::defer_to`, strand.hpp 165-169. -/
def deferTo (s : St) (h : Nat) (tp : Int) : St :=
  let s := { s with count := s.count + 1 }
  deferWithTime (s.say (.asked s.count h tp .timed)) { id := s.count, h, due := tp, how := .timed, via := false }

/-- `current_thread::worker_strategy::defer_for`/`defer_to` (current_thread.hpp 136-173) called with time point `tp` by the
function on top of the call stack.  Without a queue the task is run in place (145-150); only its entry is modelled. -/
def ctDefer (s : St) (h : Nat) (tp : Int) : St :=
  match s.run with
  | [] => s
  | f :: _ =>
    let s := { s with count := s.count + 1 }
    let s := s.say (.asked s.count h tp .queued)
    let j : Job := { id := s.count, h, due := tp, how := .queued, via := true }
    if h ∈ s.gone then s.say (.refused j.id j.how)
    else match s.tls f.tid with
      | some .guard => { s with queue := insert j s.queue }
      | some .outer => s.say (.outer j.id)
      | none => { s with run := ⟨j, f.tid, true⟩ :: s.run }.say (.began j.id f.tid s.now .queued)

/-- Entry of the handler of `defer`/`defer_with_time` on thread `t` (strand.hpp 51-55, 68-72) with the constructor of the guard
(82-88). The environment calls it when the strand is free. -/
def start (s : St) (t : Nat) : St :=
  match s.run, s.ready with
  | [], j :: rest =>
    let s := { s with ready := rest }
    if j.h ∈ s.gone then s.say (.dropped j.id j.how)
    else
      let own := (s.tls t).isNone
      let s := if own then { s with tls := fun t' => if t' = t then some .guard else s.tls t' } else s
      { s with run := [⟨j, t, own⟩] }.say (.began j.id t s.now j.how)
  | _, _ => s

/-- `process_queue`, strand.hpp 114-136: the loop over the guard's queue. -/
def handOver (s : St) : List Job → St
  | [] => s
  | j :: rest =>
    let s := { s with link := fun i => if i = j.id then rest.head?.map Job.id else s.link i }
    if j.h ∈ s.gone then handOver (s.say (.dropped j.id j.how)) rest
    else handOver (deferWithTime (s.say (.handed j.id)) { j with how := .timed }) rest

/-- Destructor of the guard, strand.hpp 89-93, 114-136. -/
def unguard (s : St) (f : Frame) : St :=
  if f.own then
    let s := { handOver s s.queue with queue := [] }
    { s with tls := fun t' => if t' = f.tid then none else s.tls t' }
  else s

/-- When the next run of a function scheduled directly is due: `defer_with_time(new_duration->value, …)` (56, 73), where `Time`
is a duration (the timer then counts from now) or a time point. -/
def nextDirect (now : Int) : Delay → Int
  | .fromNow d => now + d
  | .fromThis d => now + d
  | .to tp => tp

/-- `handle_advanced_call`, queue.hpp 98-110 and 160-163. -/
def nextVia (now tp : Int) : Delay → Int
  | .fromNow d => now + d
  | .fromThis d => tp + d
  | .to tp' => tp'

/-- The function on top of the call stack ends (strand.hpp 55-57, 72-74, 124-132; queue.hpp 145-158). -/
def finish (s : St) (r : Res) : St :=
  match s.run with
  | [] => s
  | f :: fs =>
    let j := f.job
    let s := { s with run := fs }
    let s :=
      match r with
      | .done => s.say (.ended j.id s.now r)
      | .again w =>
        let due := if j.via then nextVia s.now j.due w else nextDirect s.now w
        deferWithTime ((s.say (.ended j.id s.now r)).say (.asked j.id j.h due .timed)) { j with due, how := .timed }
      | .throws =>
        if j.via then (s.say (.onError j.id j.h)).say (.ended j.id s.now r)
        else (s.say (.ended j.id s.now r)).say (.escaped j.id)
    unguard s f

/-- What may happen next; the choice is arbitrary; no counterpart in /repo. -/
inductive Lbl where
  /-- `worker.schedule(d, fn, handler)`, by any thread -/
  | schedule (h : Nat) (d : Int)
  /-- `worker.schedule(tp, fn, handler)` -/
  | scheduleTo (h : Nat) (tp : Int)
  /-- the running function schedules on `current_thread` for `now + d` -/
  | current (h : Nat) (d : Int)
  /-- the same with a time point -/
  | currentTo (h : Nat) (tp : Int)
  | dispose (h : Nat)
  | tick (k : Nat)
  /-- the `i`-th timer, if expired, gives its handler to the strand -/
  | expire (i : Nat)
  | start (t : Nat)
  | finish (r : Res)
  /-- thread `t` enters a `current_thread` task from which it calls `io_context::run()` -/
  | own (t : Nat)
deriving DecidableEq, Repr

/-- One step; the single cases cite the lines of rppasio/schedulers/strand.hpp 30-140 they model. -/
def step (s : St) : Lbl → St
  | .schedule h d => deferFor s h d
  | .scheduleTo h tp => deferTo s h tp
  | .current h d => ctDefer s h (s.now + d)
  | .currentTo h tp => ctDefer s h tp
  | .dispose h => { s with gone := h :: s.gone }.say (.disposed h)
  | .tick k => { s with now := s.now + k }
  | .expire i =>
    match s.timers[i]? with
    | some j => if j.due ≤ s.now then { s with timers := s.timers.eraseIdx i, ready := s.ready ++ [j] } else s
    | none => s
  | .start t => start s t
  | .finish r => finish s r
  | .own t => match s.tls t with
    | none => { s with tls := fun t' => if t' = t then some .outer else s.tls t' }
    | some _ => s

/-- The state after a sequence of steps; no counterpart in /repo. -/
def exec (ls : List Lbl) : St := ls.foldl step {}

end Rpp.Strand
