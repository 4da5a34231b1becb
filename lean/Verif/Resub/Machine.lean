import Verif.Combine.Hub

/-!
# Resubscribing operators

`source::concat` (sources/concat.hpp), `repeat` and `start_with` built on it, `retry`, `retry_when` and `on_error_resume_next` (operators/).
They share one mechanism: a loop (`drain`) subscribes attempt after attempt; the flag `is_inside_drain` decides whether the thread inside
`subscribe` or the one on which the attempt ended goes on.

Attempt `n` is the `n`-th subscription.  Three kinds of threads act: `main`, which subscribes to the operator; `src n`, on which attempt `n` notifies;
`ntf n`, on which the observable returned by the user's function for attempt `n` notifies (retry_when's notifier, on_error_resume_next's fallback).
That these may be the same thread is covered: a source that emits while it is being subscribed is `src n` running while the subscriber waits at `insub`.
Sources obey the Rx contract.
Not modelled: `disposable.clear()` and the disposables handed upstream; a container whose `cbegin` throws.
-/

namespace Rpp.Resub

open Rpp.Comb (Sig Res)

/-- Who calls: the subscriber (`main`), the source of an attempt, a notifier; no counterpart in /repo. -/
inductive Who where
  | main
  | src (n : Nat)
  | ntf (n : Nat)
deriving DecidableEq

/-- What the end of an attempt leads to: the downstream observer is told; the next attempt; the user's function is asked. (sources/concat.hpp 25-114, operators/retry.hpp 20-111, retry_when.hpp 25-145) -/
inductive Verdict where
  | finish
  | again
  | ask
deriving DecidableEq

/-- `next`: the head of the loop, `none` if there is nothing left to subscribe to; `judge`: `on_error` / `on_completed` of the attempt's observer;
`resume`: the values of the observable returned by the user's function are forwarded (otherwise its first value starts the next attempt);
`catches`: an exception thrown by `subscribe` is caught by the loop. (sources/concat.hpp 25-114, operators/retry.hpp 20-111, retry_when.hpp 25-145) -/
structure Policy (β ε σ : Type) where
  init : σ
  next : σ → Option (β × σ)
  judge : σ → Term ε → Verdict
  resume : Bool
  catches : Bool

/-- Events.  `opened n x`: attempt `n` subscribes to `x`; `asked n e`: the user's function, given `e`, has returned an observable, which is being subscribed;
`handed n`: the end of attempt `n` is handed over (`is_inside_drain.exchange`); `threw n e`: the `subscribe` of attempt `n` throws;
`denied n e`: the user's function, or the `subscribe` of the observable it returned, throws. -/
inductive Ev (α β ε : Type) where
  | opened (n : Nat) (x : β)
  | asked (n : Nat) (e : ε)
  | handed (n : Nat)
  | threw (n : Nat) (e : ε)
  | denied (n : Nat) (e : ε)
  | recv (w : Who) (c : Sig α ε)
  | beg (w : Who) (o : Sig α ε)
  | own (w : Who) (e : ε)
  | fin (w : Who)
  | gone
deriving DecidableEq

/-- Where a call is inside sources/concat.hpp 25-114, operators/retry.hpp 20-111, retry_when.hpp 25-145. -/
inductive Pc (α β ε : Type) where
  | idle
  | loop                  -- `while (!disposable.is_disposed())`
  | pick                  -- concat.hpp 93-97, retry.hpp 93-94
  | store (x : β)         -- `is_inside_drain.store(true)`
  | sub (x : β)           -- `subscribe`
  | insub                 -- inside `subscribe`
  | exS                   -- `is_inside_drain.exchange(false)` after `subscribe`
  | ex (n : Nat)          -- `is_inside_drain.exchange(false)` in the attempt's (or notifier's) observer
  | ask (e : ε)           -- about to call the user's function
  | insubN                -- inside `subscribe` of the observable it returned
  | out (o : Sig α ε)
  | cb (o : Sig α ε)
  | err (e : ε)
  | cbErr
  | mark
deriving DecidableEq

/-- No call is in progress; no counterpart in /repo. -/
def Pc.isIdle {α β ε : Type} : Pc α β ε → Bool
  | .idle => true
  | _ => false

/-- `flag`: `is_inside_drain`; `dead`: the operator's disposable is disposed; `gone`: the downstream observer is disposed;
`n`: number of attempts so far; `over`: history variable, an end has been decided. (sources/concat.hpp 25-114, operators/retry.hpp 20-111, retry_when.hpp 25-145) -/
structure St (α β ε σ : Type) where
  st : σ
  flag : Bool := false
  dead : Bool := false
  gone : Bool := false
  over : Bool := false
  n : Nat := 0
  active : Who → Bool := fun _ => false
  done : Who → Bool := fun _ => false
  calls : Who → Pc α β ε := fun w => match w with | .main => .loop | _ => .idle
  log : List (Ev α β ε) := []

/-- What may happen next; the choice is arbitrary; no counterpart in /repo. -/
inductive Lbl (α ε : Type) where
  | next (w : Who) (v : α)
  | term (w : Who) (t : Term ε)
  | run (w : Who)
  | ret (w : Who) (r : Res ε)
  | ask (n : Nat) (r : Res ε)
  | throw (w : Who) (e : ε)
  | throwN (n : Nat) (e : ε)
  | gone
  | shut
deriving DecidableEq

variable {α β ε σ : Type}

/-- Log an event; no counterpart in /repo. -/
def St.emit (s : St α β ε σ) (ev : Ev α β ε) : St α β ε σ := { s with log := s.log ++ [ev] }
/-- Replace one component of the state; no counterpart in /repo. -/
def St.goto (s : St α β ε σ) (w : Who) (p : Pc α β ε) : St α β ε σ := { s with calls := fun v => if v = w then p else s.calls v }
/-- Bookkeeping: `w` makes no further calls; no counterpart in /repo. -/
def St.finish (s : St α β ε σ) (w : Who) : St α β ε σ := { s with done := fun v => if v = w then true else s.done v }
/-- Bookkeeping: `w` may make calls; no counterpart in /repo. -/
def St.start (s : St α β ε σ) (w : Who) : St α β ε σ := { s with active := fun v => if v = w then true else s.active v }

/-- The next step of a thread.  sources/concat.hpp 89-114, retry.hpp 89-111, retry_when.hpp 124-144; observer.hpp 84-144 for `out` to `mark`. -/
def St.advance (P : Policy β ε σ) (s : St α β ε σ) (w : Who) : St α β ε σ :=
  match s.calls w with
  | .idle | .cb _ | .cbErr | .ask _ => s
  | .loop => if s.dead then s.goto w .idle else s.goto w .pick
  | .pick =>
    match P.next s.st with
    | none => { s with over := true }.goto w (.out (.term .completed))
    | some (x, st) => { s with st := st }.goto w (.store x)
  | .store x => { s with flag := true }.goto w (.sub x)
  | .sub x => { s with n := s.n + 1 }.start (.src (s.n + 1)) |>.goto w .insub |>.emit (.opened (s.n + 1) x)
  | .insub => s.goto w .exS
  | .exS => if s.flag then { s with flag := false }.goto w .idle else s.goto w .loop
  | .ex n => if s.flag then { s with flag := false }.goto w .idle |>.emit (.handed n) else s.goto w .loop |>.emit (.handed n)
  | .insubN => s.goto w .idle
  | .out o => if s.gone then s.goto w .idle else s.goto w (.cb o) |>.emit (.beg w o)
  | .err e => if s.gone then s.goto w .idle else s.goto w .cbErr |>.emit (.own w e)
  | .mark => { s with gone := true }.goto w .idle

/-- A terminal notification of attempt `n`: sources/concat.hpp 66-86, retry.hpp 58-79, retry_when.hpp 104-120, on_error_resume_next.hpp 69-84. -/
def St.ended (P : Policy β ε σ) (s : St α β ε σ) (n : Nat) (t : Term ε) : St α β ε σ :=
  match P.judge s.st t, t with
  | .finish, _ => { s with over := true }.goto (.src n) (.out (.term t))
  | .again, _ => s.goto (.src n) (.ex n)
  | .ask, .error e => s.goto (.src n) (.ask e)
  | .ask, .completed => { s with over := true }.goto (.src n) (.out (.term .completed))

/-- One step; the single cases cite the lines of sources/concat.hpp 25-114, operators/retry.hpp 20-111, retry_when.hpp 25-145 they model. -/
def step (P : Policy β ε σ) (s : St α β ε σ) : Lbl α ε → St α β ε σ
  | .next .main _ | .term .main _ => s
  | .next (.src n) v =>
    if (s.calls (.src n)).isIdle && s.active (.src n) && !s.done (.src n) && !s.dead then
      s.goto (.src n) (.out (.next v)) |>.emit (.recv (.src n) (.next v))
    else s
  -- retry_when.hpp 60-69; on_error_resume_next.hpp 27-31
  | .next (.ntf n) v =>
    if (s.calls (.ntf n)).isIdle && s.active (.ntf n) && !s.done (.ntf n) && !s.dead then
      if P.resume then s.goto (.ntf n) (.out (.next v)) |>.emit (.recv (.ntf n) (.next v))
      else s.finish (.ntf n) |>.goto (.ntf n) (.ex n) |>.emit (.recv (.ntf n) (.next v))
    else s
  | .term (.src n) t =>
    if (s.calls (.src n)).isIdle && s.active (.src n) && !s.done (.src n) && !s.dead then
      (s.finish (.src n)).ended P n t |>.emit (.recv (.src n) (.term t))
    else s
  -- retry_when.hpp 71-81; on_error_resume_next.hpp 33-41
  | .term (.ntf n) t =>
    if (s.calls (.ntf n)).isIdle && s.active (.ntf n) && !s.done (.ntf n) && !s.dead then
      { s.finish (.ntf n) with over := true }.goto (.ntf n) (.out (.term t)) |>.emit (.recv (.ntf n) (.term t))
    else s
  | .run w => s.advance P w
  | .ret w r =>
    match s.calls w, r with
    | .cb (.next _), .ok => (s.goto w .idle).emit (.fin w)
    | .cb (.next _), .throw e => (s.goto w (.err e)).emit (.fin w)
    | .cb (.term _), _ => (s.goto w .mark).emit (.fin w)
    | .cbErr, _ => (s.goto w .mark).emit (.fin w)
    | _, _ => s
  -- retry_when.hpp 104-114, on_error_resume_next.hpp 69-79
  | .ask n r =>
    match s.calls (.src n), r with
    | .ask e, .ok => s.start (.ntf n) |>.goto (.src n) .insubN |>.emit (.asked n e)
    | .ask _, .throw e => { s with over := true }.goto (.src n) (.out (.term (.error e))) |>.emit (.denied n e)
    | _, _ => s
  -- `subscribe` throws: sources/concat.hpp 108-112, retry.hpp 105-109.  A source that throws does not notify any more, and its throwing is not
  -- considered while the user's function's observable is running
  | .throw w e =>
    match s.calls w with
    | .insub =>
      if P.catches && (s.calls (.src s.n)).isIdle && (s.calls (.ntf s.n)).isIdle && (!s.active (.ntf s.n) || s.done (.ntf s.n)) then
        { s with over := true }.finish (.src s.n) |>.goto w (.out (.term (.error e))) |>.emit (.threw s.n e)
      else s
    | _ => s
  -- the user's function's observable throws from its `subscribe` (not after it has notified its end or, for retry_when, its value)
  | .throwN n e =>
    match s.calls (.src n) with
    | .insubN =>
      if (s.calls (.ntf n)).isIdle && !s.done (.ntf n) then
        { s with over := true }.finish (.ntf n) |>.goto (.src n) (.out (.term (.error e))) |>.emit (.denied n e)
      else s
    | _ => s
  | .gone => if s.gone then s else { s with gone := true }.emit .gone
  | .shut => if s.gone then { s with dead := true } else s

/-- The state after a sequence of steps; no counterpart in /repo. -/
def exec (P : Policy β ε σ) (ls : List (Lbl α ε)) : St α β ε σ := ls.foldl (step P) { st := P.init }

/-! ## What can be read off a history -/

/-- The attempts, with what each subscribed to. -/
def openings (log : List (Ev α β ε)) : List (Nat × β) := log.filterMap fun | .opened n x => some (n, x) | _ => none
/-- The values the downstream observer got, read off the log; no counterpart in /repo. -/
def values (log : List (Ev α β ε)) : List α := log.filterMap fun | .beg _ (.next v) => some v | _ => none
/-- The values notified by `w`. -/
def sent (w : Who) (log : List (Ev α β ε)) : List α := log.filterMap fun | .recv u (.next v) => if u = w then some v else none | _ => none
/-- A callback of the downstream observer is running, read off the log; no counterpart in /repo. -/
def busy (log : List (Ev α β ε)) : Bool := log.foldl (fun b ev => match ev with | .beg _ _ | .own _ _ => true | .fin _ => false | _ => b) false
/-- The downstream observer has been told the end. -/
def Ended (log : List (Ev α β ε)) : Prop := (∃ w t, .beg w (.term t) ∈ log) ∨ ∃ w e, .own w e ∈ log

/-! ## The operators -/

/-- sources/concat.hpp: the state is what is left of the container. -/
def concatPolicy (xs : List β) : Policy β ε (List β) where
  init := xs
  next
    | [] => none
    | x :: xs => some (x, xs)
  judge _ t := match t with | .completed => .again | .error _ => .finish
  resume := false
  catches := true

/-- repeat.hpp 27-30 over utils.hpp 141-201: the iterator's index is compared with the count; `S` values of `size_t`. -/
def repeatPolicy (S : Nat) (x : β) (count : Nat) : Policy β ε Nat where
  init := 0
  next i := if i = count then none else some (x, (i + 1) % S)
  judge _ t := match t with | .completed => .again | .error _ => .finish
  resume := false
  catches := true

/-- repeat.hpp 33-41 over utils.hpp 203-249: the iterator never reaches the end. -/
def repeatForeverPolicy (x : β) : Policy β ε Unit where
  init := ()
  next _ := some (x, ())
  judge _ t := match t with | .completed => .again | .error _ => .finish
  resume := false
  catches := true

/-- retry.hpp: the state is the counter, `count + 1` at first (129), decremented for every subscription (93-94), compared with 0 at an error (61-65);
`S` values of `size_t`. -/
def retryPolicy (S : Nat) (count : Option Nat) : Policy Unit ε (Option Nat) where
  init := count.map fun c => (c + 1) % S
  next c := some ((), c.map fun c => (c + (S - 1)) % S)
  judge c t := match t with | .completed => .finish | .error _ => if c = some 0 then .finish else .again
  resume := false
  catches := true

/-- retry_when.hpp -/
def retryWhenPolicy : Policy Unit ε Unit where
  init := ()
  next _ := some ((), ())
  judge _ t := match t with | .completed => .finish | .error _ => .ask
  resume := false
  catches := true

/-- on_error_resume_next.hpp: there is one subscription and no loop (`next` is asked once, and its flag is never looked at by anyone else);
an exception of `subscribe` goes to the caller. -/
def resumeNextPolicy : Policy Unit ε Unit where
  init := ()
  next _ := some ((), ())
  judge _ t := match t with | .completed => .finish | .error _ => .ask
  resume := true
  catches := false

end Rpp.Resub
