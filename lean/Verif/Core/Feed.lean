import Verif.Core.Spec

/-!
# C106: operators fed by their own subscriber

A subscriber may push further values into the source it is subscribed to from inside its own callback
(a feedback loop through a subject). The operators' callbacks are then entered again while they are still
waiting for the observer below them to return. `Verif.Core.Model` treats a callback as one step; here it is
a program that is suspended at each call it makes on the observer below, with its data members saved at
that moment and read again afterwards.
-/

namespace Rpp.Feed

/-- What is left to do of a callback of an observer strategy with data members `σ`: return (`done`), call the
observer below (`emit s c k`: the members hold `s` during the call, and `k` reads them afterwards) or throw.
(the member functions of the strategies in operators/*.hpp, cited below) -/
inductive Prog (σ β ε : Type) where
  | done (s : σ)
  | emit (s : σ) (c : Call β ε) (k : σ → Prog σ β ε)
  | fail (s : σ) (e : ε)

/-- An operator's observer strategy, callback by callback (as `OpStrategy`, operators/*.hpp). -/
structure Micro (α β ε σ : Type) where
  init : σ
  initOut : List (Call β ε) := []
  onNext : α → σ → Prog σ β ε
  onError : ε → σ → Prog σ β ε := fun e s => .emit s (.error e) .done
  onCompleted : σ → Prog σ β ε := fun s => .emit s .completed .done

/-- The `catch` of `on_next` (observers/observer.hpp 84-96): the exception goes to `on_error`. -/
def Prog.handle (h : ε → σ → Prog σ β ε) : Prog σ β ε → Prog σ β ε
  | .done s => .done s
  | .emit s c k => .emit s c fun s' => (k s').handle h
  | .fail s e => h e s

/-- A call on the observer made of the strategy (observers/observer.hpp 52-145) while it is not disposed. -/
def Micro.call (M : Micro α β ε σ) (c : Call α ε) (s : σ) : Prog σ β ε :=
  match c with
  | .next a => (M.onNext a s).handle M.onError
  | .error e => M.onError e s
  | .completed => M.onCompleted s
  | .up d => .emit s (.up d) .done

/-! ## The operators -/

/-- map.hpp 30-34. -/
def map (f : α → Except ε β) : Micro α β ε Unit where
  init := ()
  onNext a s := match f a with
    | .ok b => .emit s (.next b) .done
    | .error e => .fail s e

/-- filter.hpp 30-35. -/
def filter (p : α → Except ε Bool) : Micro α α ε Unit where
  init := ()
  onNext a s := match p a with
    | .ok true => .emit s (.next a) .done
    | .ok false => .done s
    | .error e => .fail s e

/-- The second half of take.hpp 30-41: `if (count == 0) observer.on_completed()`. -/
def takeEnd (count : Nat) : Prog Nat α ε :=
  if count = 0 then .emit count .completed .done else .done count

/-- take.hpp 30-41: the counter is decreased before the value is passed on and read again afterwards. -/
def take (n : Nat) : Micro α α ε Nat where
  init := n
  onNext a count :=
    if count > 0 then .emit (count - 1) (.next a) takeEnd else takeEnd count

/-- skip.hpp 30-37. -/
def skip (n : Nat) : Micro α α ε Nat where
  init := n
  onNext a count := if count = 0 then .emit count (.next a) .done else .done (count - 1)

/-- take_while.hpp 28-35. -/
def takeWhile (p : α → Except ε Bool) : Micro α α ε Unit where
  init := ()
  onNext a s := match p a with
    | .ok true => .emit s (.next a) .done
    | .ok false => .emit s .completed .done
    | .error e => .fail s e

/-- The loop of take_last.hpp 57-61: `k` more iterations, then `on_completed` (62). -/
def takeLastDrain : Nat → Ops.TakeLastSt α → Prog (Ops.TakeLastSt α) α ε
  | 0, s => .emit s .completed .done
  | k + 1, s => match s.data[s.cur]? with
    | some a => .emit s (.next a) fun s' =>
        takeLastDrain k { s' with cur := Ops.takeLastNext s'.data.length s'.cur }
    | none => takeLastDrain k { s with cur := Ops.takeLastNext s.data.length s.cur }

/-- take_last.hpp 28-64. (The number of iterations is `m_data.size()` at the beginning; the code reads it
again at each one.) -/
def takeLast (n : Nat) : Micro α α ε (Ops.TakeLastSt α) where
  init := { data := [], cap := n, cur := 0 }
  onNext a s :=
    if s.cap = 0 then .done s
    else if s.data.length < s.cap then .done { s with data := s.data ++ [a] }
    else .done { s with data := s.data.set s.cur a, cur := Ops.takeLastNext s.data.length s.cur }
  onCompleted s := takeLastDrain s.data.length s

/-- first.hpp 27-37. -/
def first (notEnough : ε) : Micro α α ε Unit where
  init := ()
  onNext a s := .emit s (.next a) fun s' => .emit s' .completed .done
  onCompleted s := .emit s (.error notEnough) .done

/-- last.hpp 30-45. -/
def last (notEnough : ε) : Micro α α ε (Option α) where
  init := none
  onNext a _ := .done (some a)
  onCompleted s := match s with
    | some a => .emit s (.next a) fun s' => .emit s' .completed .done
    | none => .emit s (.error notEnough) .done

/-- element_at.hpp 31-58, 101-104. -/
def elementAt (index : Nat) (outOfRange : ε) : Micro α α ε Nat where
  init := Ops.addSize index 1
  onNext a count :=
    let count' := if count ≠ 0 then count - 1 else count
    if count' = 0 then .emit count' (.next a) fun s' => .emit s' .completed .done else .done count'
  onCompleted count :=
    if count ≠ 0 then .emit count (.error outOfRange) .done else .emit count .completed .done

/-- distinct.hpp 31-39: the value is inserted before it is passed on. -/
def distinct [BEq α] : Micro α α ε (List α) where
  init := []
  onNext a seen := if seen.contains a then .done seen else .emit (a :: seen) (.next a) .done

/-- distinct_until_changed.hpp 31-39. -/
def distinctUntilChanged (eq : α → α → Except ε Bool) : Micro α α ε (Option α) where
  init := none
  onNext a last := match last with
    | none => .emit (some a) (.next a) .done
    | some l => match eq l a with
      | .ok true => .done last
      | .ok false => .emit (some a) (.next a) .done
      | .error e => .fail last e

/-- scan.hpp 23-49. -/
def scan (seed : β) (f : β → α → Except ε β) : Micro α β ε β where
  init := seed
  initOut := [.next seed]
  onNext a s := match f s a with
    | .ok b => .emit b (.next b) .done
    | .error e => .fail s e

/-- scan.hpp 71-100. -/
def scanNoSeed (f : α → α → Except ε α) : Micro α α ε (Option α) where
  init := none
  onNext a s := match s with
    | none => .emit (some a) (.next a) .done
    | some b => match f b a with
      | .ok c => .emit (some c) (.next c) .done
      | .error e => .fail s e

/-- reduce.hpp 20-47. -/
def reduce (seed : β) (f : β → α → Except ε β) : Micro α β ε β where
  init := seed
  onNext a s := match f s a with
    | .ok b => .done b
    | .error e => .fail s e
  onCompleted s := .emit s (.next s) fun s' => .emit s' .completed .done

/-- reduce.hpp 69-100. -/
def reduceNoSeed (f : α → α → Except ε α) : Micro α α ε (Option α) where
  init := none
  onNext a s := match s with
    | none => .done (some a)
    | some b => match f b a with
      | .ok c => .done (some c)
      | .error e => .fail s e
  onCompleted s := match s with
    | some b => .emit s (.next b) fun s' => .emit s' .completed .done
    | none => .emit s .completed .done

/-- The bucket of buffer.hpp 67: contents and capacity of a `std::vector`. -/
structure Bucket (α : Type) where
  data : List α
  cap : Nat

/-- `std::vector::push_back`; a full vector doubles its capacity (libstdc++, libc++). (buffer.hpp 41) -/
def Bucket.push (a : α) (b : Bucket α) : Bucket α :=
  { data := b.data ++ [a], cap := if b.data.length = b.cap then max 1 (2 * b.cap) else b.cap }

/-- buffer.hpp 32-59. The bucket is passed on as an rvalue: if the observer below moves it out (`moves`),
the member is an empty vector without capacity during the call, otherwise it still holds the values. After
the call it is cleared and `reserve`d (47-48). -/
def buffer (moves : Bool) (n : Nat) : Micro α (List α) ε (Bucket α) where
  init := { data := [], cap := max 1 n }
  onNext a s :=
    let b := s.push a
    if b.data.length = b.cap then
      .emit (if moves then { data := [], cap := 0 } else b) (.next b.data) fun s' =>
        .done { data := [], cap := max s'.cap b.cap }
    else .done b
  onCompleted s :=
    if s.data.isEmpty then .emit s .completed .done
    else .emit (if moves then { data := [], cap := 0 } else s) (.next s.data) fun s' =>
      .emit s' .completed .done

/-- tap.hpp 34-51. -/
def tap (cb : α → Option ε) : Micro α α ε (List (Call α ε)) where
  init := []
  onNext a log := match cb a with
    | none => .emit (log ++ [.next a]) (.next a) .done
    | some e => .fail (log ++ [.next a]) e
  onError e log := .emit (log ++ [.error e]) (.error e) .done
  onCompleted log := .emit (log ++ [.completed]) .completed .done

/-- finally.hpp 34-39. -/
def finallyOp (d : Nat) : Micro α α ε Unit where
  init := ()
  initOut := [.up d]
  onNext a s := .emit s (.next a) .done

/-- throttle.hpp 33-42: the time of the last emission is stored *after* the value was passed on. -/
def throttle (duration : Int) : Micro (Int × α) α ε (Option Int) where
  init := none
  onNext ta last :=
    if (match last with | none => true | some l => decide (ta.1 ≥ l + duration)) then
      .emit last (.next ta.2) fun _ => .done (some ta.1)
    else .done last

/-- Data members of each operator's strategy (as `Op.State`, with the capacity of buffer's bucket). (the data members of the strategies) -/
abbrev State : Op ε α β → Type
  | @Op.buffer _ α _ => Bucket α
  | .map _ | .filter _ | .takeWhile _ | .first _ | .finallyOp _ => Unit
  | .take _ | .skip _ | .elementAt _ _ => Nat
  | @Op.takeLast _ α _ => Ops.TakeLastSt α
  | @Op.last _ α _ | @Op.distinctUntilChanged _ α _ | @Op.scanNoSeed _ α _ | @Op.reduceNoSeed _ α _ => Option α
  | @Op.distinct _ α _ => List α
  | @Op.scan _ _ β _ _ | @Op.reduce _ _ β _ _ => β
  | @Op.tap ε α _ => List (Call α ε)
  | .throttle _ => Option Int

/-- Strategy of each operator. (the operators cited at their strategies) -/
def micro (moves : Bool) : (o : Op ε α β) → Micro α β ε (State o)
  | .map f => map f
  | .filter p => filter p
  | .take n => take n
  | .skip n => skip n
  | .takeWhile p => takeWhile p
  | .takeLast n => takeLast n
  | .first e => first e
  | .last e => last e
  | .elementAt i e => elementAt i e
  | @Op.distinct _ _ inst => @distinct _ _ inst
  | .distinctUntilChanged eq => distinctUntilChanged eq
  | .scan s f => scan s f
  | .scanNoSeed f => scanNoSeed f
  | .reduce s f => reduce s f
  | .reduceNoSeed f => reduceNoSeed f
  | .buffer n => buffer moves n
  | .tap cb => tap cb
  | .finallyOp d => finallyOp d
  | .throttle d => throttle d

/-! ## Pipelines -/

/-- The observer below runs `p` inside a call made by the observer above, whose members hold `s`; when it
returns, `K` goes on. (observers/observer.hpp 84-145) -/
def inner : Prog τ γ ε → σ → (σ → τ → Prog (σ × τ) γ ε) → Prog (σ × τ) γ ε
  | .done t, s, K => K s t
  | .emit t c k, s, K => .emit (s, t) c fun x => inner (k x.2) x.1 K
  | .fail t _, s, K => K s t

/-- A callback of the operator above, whose calls go to the operator `Q` below. The test of `is_disposed()`
on entry of `Q` is left out: it answers what the subscriber's flag says, and then nothing `Q` does is seen.
(observers/observer.hpp 84-145, operators/details/strategy.hpp 36-49) -/
def through (Q : Micro β γ ε τ) : Prog σ β ε → τ → Prog (σ × τ) γ ε
  | .done s, t => .done (s, t)
  | .emit s c k, t => inner (Q.call c t) s fun s' t' => through Q (k s') t'
  | .fail s e, t => .fail (s, t) e

/-- Without nested calls: the calls a program makes, and the members afterwards. -/
def Prog.flat : Prog σ β ε → σ × List (Call β ε)
  | .done s => (s, [])
  | .emit s c k => ((k s).flat.1, c :: (k s).flat.2)
  | .fail s _ => (s, [])

/-- Without nested calls: the calls made in answer to a sequence of calls. -/
def Micro.flatRun (M : Micro α β ε σ) (s : σ) : List (Call α ε) → σ × List (Call β ε)
  | [] => (s, [])
  | c :: cs =>
    let r := (M.call c s).flat
    let r' := M.flatRun r.1 cs
    (r'.1, r.2 ++ r'.2)

/-- Two observers, the first one handing its calls to the second. What the constructor of the first one sends
(`scan`'s seed, the callback of `finally`) passes through the second one; the source is not subscribed yet,
so nothing can be fed meanwhile. (observables/details/chain_strategy.hpp 45-56) -/
def comp (P : Micro α β ε σ) (Q : Micro β γ ε τ) : Micro α γ ε (σ × τ) where
  init := (P.init, (Q.flatRun Q.init P.initOut).1)
  initOut := Q.initOut ++ (Q.flatRun Q.init P.initOut).2
  onNext a s := through Q (P.call (.next a) s.1) s.2
  onError e s := through Q (P.call (.error e) s.1) s.2
  onCompleted s := through Q (P.call .completed s.1) s.2

/-- No operator at all. -/
def nothing : Micro α α ε Unit where
  init := ()
  onNext a s := .emit s (.next a) .done

/-- Data members of a pipeline. (observables/details/chain_strategy.hpp 20-60) -/
def PState : Pipe ε α γ → Type
  | .nil => Unit
  | .cons o p => State o × PState p

/-- The observers of a pipeline, without the subscriber's. (observables/details/chain_strategy.hpp 45-56) -/
def pipe (moves : Bool) : (p : Pipe ε α γ) → Micro α γ ε (PState p)
  | .nil => nothing
  | .cons o p => comp (micro moves o) (pipe moves p)

/-! ## A subscription that feeds itself -/

/-- A call of the subscriber's observer that is running: how the pipeline goes on after it, and whether it is a
terminal call (then the observer is disposed when the callback returns, observers/observer.hpp 118-144). -/
structure Frame (σ γ ε : Type) where
  k : σ → Prog σ γ ε
  last : Bool

/-- State of the subscription. `closed`: the source made its terminal call (a subject emits nothing
afterwards: subjects/details/subject_state.hpp 97-147). `disposed`: the flag of the subscriber's observer
(observers/details/disposable_strategy.hpp 95). `stack`: the callbacks running, innermost first. For the
specification: `log`, the subscriber's callbacks in the order they started; `fed`, the calls made by the
source; `left`, whether the subscriber disposed or threw before the end. -/
structure St (α γ ε σ : Type) where
  op : σ
  closed : Bool := false
  disposed : Bool := false
  stack : List (Frame σ γ ε) := []
  log : List (Call γ ε) := []
  fed : List (Call α ε) := []
  left : Bool := false

/-- The subscriber has been told the end. -/
def St.ended (st : St α γ ε σ) : Bool := (traceOf st.log).fin.isSome

/-- Terminal calls. -/
def isEnd : Call α ε → Bool
  | .error _ | .completed => true
  | _ => false

/-- The pipeline runs until it calls the subscriber or returns (the subscriber's `observer_impl`,
observers/observer.hpp 52-145: nothing happens if it is disposed; `set_upstream` runs no callback). -/
def run : Prog σ γ ε → St α γ ε σ → St α γ ε σ
  | .done s, st => { st with op := s }
  | .fail s _, st => { st with op := s }
  | .emit s c k, st =>
    if st.disposed then run (k s) st
    else match c with
      | .up d => run (k s) { st with log := st.log ++ [.up d] }
      | c => { st with op := s, stack := ⟨k, isEnd c⟩ :: st.stack, log := st.log ++ [c] }

/-- What user code can do next, on the one thread there is: make the source emit (at any time, also inside a
callback), return from the running callback, throw from it, or dispose the subscription. -/
inductive Lbl (α ε : Type) where
  | feed (c : Call α ε)
  | ret
  | throw (e : ε)
  | dispose

/-- One step. A terminal callback that throws ends the process (`noexcept`), which is not modelled.
(observers/observer.hpp 52-145, subjects/details/subject_state.hpp 97-147) -/
def step (M : Micro α γ ε σ) (st : St α γ ε σ) : Lbl α ε → St α γ ε σ
  | .feed c =>
    if st.closed || st.disposed then st
    else run (M.call c st.op) { st with closed := isEnd c, fed := st.fed ++ [c] }
  | .ret => match st.stack with
    | [] => st
    | f :: fs => run (f.k st.op) { st with stack := fs, disposed := st.disposed || f.last }
  | .throw e => match st.stack with
    | [] => st
    | f :: fs =>
      if f.last then st
      else if st.disposed then run (f.k st.op) { st with stack := fs }
      else { st with stack := ⟨f.k, true⟩ :: fs, log := st.log ++ [.error e], left := st.left || !st.ended }
  | .dispose => { st with disposed := true, left := st.left || !st.ended }

/-- Right after subscribing. (operators/details/strategy.hpp 36-49) -/
def start (M : Micro α γ ε σ) : St α γ ε σ := { op := M.init, log := M.initOut }

/-- Any history of the subscription. -/
def exec (M : Micro α γ ε σ) (ls : List (Lbl α ε)) : St α γ ε σ := ls.foldl (step M) (start M)

/-! ## Which pipelines are safe -/

/-- Operators whose `on_next` touches nothing after its call on the observer below. -/
def tails : Op ε α β → Bool
  | .take _ | .first _ | .elementAt _ _ | .buffer _ | .throttle _ => false
  | _ => true

/-- Operators whose `on_completed` only forwards. -/
def forwards : Op ε α β → Bool
  | .last _ | .takeLast _ | .reduce _ _ | .reduceNoSeed _ | .buffer _ | .first _ | .elementAt _ _ => false
  | _ => true

/-- Operators that may complete although the source does not. -/
def completesItself : Op ε α β → Bool
  | .take _ | .takeWhile _ | .first _ | .elementAt _ _ => true
  | _ => false

/-- All stages only forward the completion. -/
def Forwards : Pipe ε α γ → Prop
  | .nil => True
  | .cons o p => forwards o = true ∧ Forwards p

/-- Every stage passes values on as its last act, and a stage that completes by itself is followed only by
stages that forward the completion. -/
def Steady : Pipe ε α γ → Prop
  | .nil => True
  | .cons o p => tails o = true ∧ (completesItself o = true → Forwards p) ∧ Steady p

end Rpp.Feed
