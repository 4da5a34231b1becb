/-!
# `composite_disposable` as a concurrent state machine

Small-step model of `composite_disposable_impl` (disposables/composite_disposable.hpp 30-166) used by any
number of threads. Every access to the atomic `m_current_state` is one step, every access to the container
is one step; steps of different threads interleave arbitrarily (sequential consistency: the code uses
`seq_cst` everywhere). Children may call back into the same composite when they are disposed, so a thread
is a stack of frames.
-/

namespace Rpp.Composite

/-- composite_disposable.hpp 157-162. -/
inductive CSt where
  | none | edit | disposed
deriving DecidableEq, Repr

/-- The operations of the class. (disposables/composite_disposable.hpp 30-166) -/
inductive Op where
  | add (d : Nat) | remove (d : Nat) | clear | dispose
deriving DecidableEq, Repr

/-- Where a call of one of the operations is. -/
inductive Frame where
  | addCheck (d : Nat)   -- line 67
  | addCas (d : Nat)     -- line 74
  | addPush (d : Nat)    -- line 78
  | addStore             -- line 86
  | addFail              -- lines 80-84
  | addKill (d : Nat)    -- line 92
  | remCas (d : Nat)     -- line 104
  | remErase (d : Nat)   -- line 108
  | remStore             -- line 116
  | clrCas               -- line 131
  | clrIter (i : Nat)    -- line 135 (i-th child) and 136
  | clrStore             -- line 144
  | dspCas               -- line 49
  | dspHook              -- line 51
  | dspIter (i : Nat)    -- line 53 (i-th child) and 54
  | script (ops : List Op) -- the dispose callback of a child (or `composite_dispose_impl`), calls to make
deriving DecidableEq, Repr

/-- Ghost history: `add` took effect / `remove` took effect. -/
inductive Ev where
  | added (d : Nat) | removed (d : Nat)
deriving DecidableEq, Repr

/-- Parameters: the container's capacity (`none`: dynamic), the composite's own identity, what disposing a
child does to the composite, and what `composite_dispose_impl` does to it. (disposables/composite_disposable.hpp 30-166) -/
structure Cfg where
  cap : Option Nat := .none
  self : Nat := 0
  child : Nat → List Op := fun _ => []
  hook : List Op := []

/-- `push_back` into a container holding `k` children throws (details/container.hpp 103, 111; the dynamic
container, 28-36, never throws). -/
def Cfg.full (c : Cfg) (k : Nat) : Bool :=
  match c.cap with
  | .none => false
  | some n => k ≥ n

/-- Shared state, children already disposed, ghost fields, and one stack per thread. (disposables/composite_disposable.hpp 30-166) -/
structure St where
  st : CSt := .none
  kids : List Nat := []
  dead : List Nat := []
  hooks : Nat := 0
  hist : List Ev := []
  th : Nat → List Frame := fun _ => []

/-- First frame of an operation. (disposables/composite_disposable.hpp 30-166) -/
def Op.frame : Op → Frame
  | .add d => .addCheck d
  | .remove d => .remCas d
  | .clear => .clrCas
  | .dispose => .dspCas

/-- Replace the stack of thread `t`. -/
def St.put (s : St) (t : Nat) (stk : List Frame) : St :=
  { s with th := fun u => if u = t then stk else s.th u }

/-- `disposable.dispose()` of child `d` on thread `t` (disposable_wrapper.hpp 69-73, base_disposable.hpp
36-41): the first call runs the child's callback, further calls do nothing. -/
def St.kill (c : Cfg) (s : St) (t : Nat) (d : Nat) (rest : List Frame) : St :=
  if d ∈ s.dead then s.put t rest
  else { s with dead := d :: s.dead }.put t (.script (c.child d) :: rest)

/-- One step of thread `t`, whose stack is `f :: rest`. -/
def runFrame (c : Cfg) (s : St) (t : Nat) (f : Frame) (rest : List Frame) : St :=
  match f with
  -- add, lines 65-96
  | .addCheck d =>
    if d = c.self then s.put t rest
    else if d ∈ s.dead then { s with hist := s.hist ++ [Ev.added d] }.put t rest
    else s.put t (.addCas d :: rest)
  | .addCas d =>
    match s.st with
    | .none => { s with st := .edit }.put t (.addPush d :: rest)
    | .edit => s
    | .disposed => { s with hist := s.hist ++ [Ev.added d] }.put t (.addKill d :: rest)
  | .addPush d =>
    -- static_disposables_container::push_back throws when full (details/container.hpp 103-104)
    if c.full s.kids.length then s.put t (.addFail :: rest)
    else { s with kids := s.kids ++ [d], hist := s.hist ++ [Ev.added d] }.put t (.addStore :: rest)
  | .addStore => { s with st := .none }.put t rest
  | .addFail => { s with st := .none }.put t rest
  | .addKill d => s.kill c t d rest
  -- remove, lines 98-123
  | .remCas d =>
    match s.st with
    | .none => { s with st := .edit }.put t (.remErase d :: rest)
    | .edit => s
    | .disposed => s.put t rest
  | .remErase d =>
    { s with kids := s.kids.filter (fun x => x ≠ d), hist := s.hist ++ [Ev.removed d] }.put t (.remStore :: rest)
  | .remStore => { s with st := .none }.put t rest
  -- clear, lines 125-151
  | .clrCas =>
    match s.st with
    | .none => { s with st := .edit }.put t (.clrIter 0 :: rest)
    | .edit => s
    | .disposed => s.put t rest
  | .clrIter i =>
    match s.kids[i]? with
    | some d => s.kill c t d (.clrIter (i + 1) :: rest)
    | .none => { s with kids := [] }.put t (.clrStore :: rest)
  | .clrStore => { s with st := .none }.put t rest
  -- dispose_impl, lines 43-61
  | .dspCas =>
    match s.st with
    | .none => { s with st := .disposed }.put t (.dspHook :: rest)
    | .edit => s
    | .disposed => s.put t rest
  | .dspHook => { s with hooks := s.hooks + 1 }.put t (.script c.hook :: .dspIter 0 :: rest)
  | .dspIter i =>
    match s.kids[i]? with
    | some d => s.kill c t d (.dspIter (i + 1) :: rest)
    | .none => { s with kids := [] }.put t rest
  -- a callback making its calls one after the other
  | .script [] => s.put t rest
  | .script (o :: os) => s.put t (o.frame :: .script os :: rest)

/-- What can happen next: an idle thread calls an operation, a thread makes one step, somebody disposes a
child directly. -/
inductive Lbl where
  | call (t : Nat) (o : Op)
  | run (t : Nat)
  | killChild (d : Nat)
deriving DecidableEq, Repr

/-- One step; the single cases cite the lines of disposables/composite_disposable.hpp 30-166 they model. -/
def step (c : Cfg) (s : St) : Lbl → St
  | .call t o => match s.th t with
    | [] => s.put t [o.frame]
    | _ => s
  | .run t => match s.th t with
    | [] => s
    | f :: rest => runFrame c s t f rest
  | .killChild d => { s with dead := d :: s.dead }

/-- The state after a history of steps. -/
def exec (c : Cfg) (s : St) (ls : List Lbl) : St := ls.foldl (step c) s

/-! ## Specification vocabulary -/

/-- `d` was added and not removed afterwards. -/
def Kept (hist : List Ev) (d : Nat) : Prop :=
  ∃ pre post, hist = pre ++ .added d :: post ∧ Ev.removed d ∉ post

/-- All calls have returned. -/
def Quiet (s : St) : Prop := ∀ t, s.th t = []

/-- Frames that own the `Edit` state. (disposables/composite_disposable.hpp 30-166) -/
def Frame.crit : Frame → Bool
  | .addPush _ | .addStore | .addFail | .remErase _ | .remStore | .clrIter _ | .clrStore => true
  | _ => false

/-- Frames of the one call that performs the disposal. (disposables/composite_disposable.hpp 30-166) -/
def Frame.dsp : Frame → Bool
  | .dspHook | .dspIter _ => true
  | _ => false

end Rpp.Composite
