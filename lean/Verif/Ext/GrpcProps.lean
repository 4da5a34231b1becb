import Verif.Ext.GrpcProofs

/-!
# gRPC reactors: C73 (writing), C74 (reading), C75 (finishing), C76 (lifetime)

All theorems are about every execution: any number of emitting threads, gRPC's reactions at any time it allows.
-/

namespace Rpp.Grpc

variable {α β : Type}

/-! ## C73 -/

/-- C73: what gRPC is handed are the messages emitted, in order, each once, none left out; one ahead of the ones reported done. -/
theorem C73_order (k : Kind) (ls : List (Lbl α β)) :
    written (exec k ls).log = (taken (exec k ls).log).take (acks (exec k ls).log + 1) :=
  (WInv.exec k ls).writ

/-- C73: one write at a time, the end of writes at most once, not during a write, no write after it. -/
theorem C73_rules (k : Kind) (ls : List (Lbl α β)) : wire (exec k ls).log ≠ none := by
  rw [(WInv.exec k ls).wire]; simp

/-- C73: the writer closes the stream once, exactly when the user has ended it and every message was reported done. -/
theorem C73_close (k : Kind) (ls : List (Lbl α β)) :
    (closes (exec k ls).log).length =
      if ends (exec k ls).log ≠ [] ∧ acks (exec k ls).log = (taken (exec k ls).log).length then 1 else 0 := by
  have h := WInv.exec k ls
  rw [h.cl]
  have hq : (exec k ls).queue = [] ↔ acks (exec k ls).log = (taken (exec k ls).log).length := by
    rw [h.queue, List.drop_eq_nil_iff]; have := h.n_le; omega
  simp only [h.fin, hq]

/-- C73: on_completed closes the stream with OK. -/
theorem C73_completed (k : Kind) (ls : List (Lbl α β)) (h : ends (exec k ls).log = [true]) :
    ∀ st ∈ closes (exec k ls).log, st = .ok :=
  (WInv.exec k ls).clOk h

/-- C73 for on_error: the status is INTERNAL if every message was reported done before the on_error.
Missing: the case of messages not yet reported done, see the refutation. -/
theorem C73_error_partial (k : Kind) (ls : List (Lbl α β)) (l1 l2 : List (Ev α β))
    (h : (exec k ls).log = l1 ++ .took .error :: l2) (hd : acks l1 = (taken l1).length) :
    ∀ st ∈ closes (exec k ls).log, st = .internal := by
  intro st hst
  rw [(WInv.exec k ls).clErr l1 l2 h st hst, errorStatus, if_pos hd]

/-- C73 fails: on_error right after on_next, and the server finishes the call with OK (base.hpp 60-63, 79-86). -/
theorem C73_error_refutes : ∃ ls : List (Lbl Nat Nat),
    ends (exec .serverBidi ls).log = [false] ∧ closes (exec .serverBidi ls).log = [.ok] :=
  ⟨[.emit (.next 1), .deliver 0, .emit .error, .deliverEnd, .onWriteDone true], by decide, by decide⟩

/-- C73 for a user emitting from one thread: exactly the messages before the first terminal emission reach the writer. -/
theorem C73_single_thread (k : Kind) (hk : k.writes = true) (ts : List (Turn α β)) :
    taken (exec k (ts.flatMap Turn.labels)).log = valuesOf (emits ts) ∧
    ends (exec k (ts.flatMap Turn.labels)).log = endOf (emits ts) :=
  ⟨(TInv.exec hk ts).tak, (TInv.exec hk ts).ends⟩

/-- Two threads emit at once, the second message waits for the first write. -/
example :
    (exec (β := Nat) .clientWrite [.emit (.next 1), .emit (.next 2), .deliver 1, .deliver 0, .emit .completed, .deliverEnd,
      .onWriteDone true, .onWriteDone true]).log
    = [.took (.next 2), .write 2, .took (.next 1), .took .completed, .wrote true, .write 1, .wrote true, .close .ok] := by decide

/-- on_error with nothing to write. -/
example : (exec (α := Nat) (β := Nat) .serverWrite [.emit .error, .deliverEnd]).log = [.took .error, .close .internal] := by decide

/-- Emissions after the end are ignored. -/
example :
    let ts : List (Turn Nat Nat) := [.user (.next 1), .wrote true, .user .completed, .user (.next 2)]
    (exec .clientBidi (ts.flatMap Turn.labels)).log
    = [.read, .took (.next 1), .write 1, .wrote true, .took .completed, .close .ok] := by decide

/-! ## C74 -/

/-- C74: one read at a time, the next one only after the subscribers were shown the last message. -/
theorem C74_reads (k : Kind) (ls : List (Lbl α β)) : reads (exec k ls).log ≠ none := by
  rw [(RInv.exec k ls).reads]; simp

/-- C74: the subscribers are shown exactly the messages received before the end, in order. -/
theorem C74_shown (k : Kind) (ls : List (Lbl α β)) :
    shown (exec k ls).log = received (beforeEnd (exec k ls).log) :=
  (RInv.exec k ls).shown

/-- C74: a call that is over has shown exactly one end: of a client the outcome of the call, of a server on_error if it was
cancelled and on_completed otherwise. -/
theorem C74_end (k : Kind) (ls : List (Lbl α β)) (ok : Bool) (h : .done ok ∈ (exec k ls).log) :
    terms (exec k ls).log = [if k.server then decide (cancels (exec k ls).log = 0) else ok] := by
  rw [(RInv.exec k ls).doneTerm ok h, (FInv.exec k ls).canc]
  cases (exec k ls).cancelled <;> simp

/-- C74: there is no end before the call is over or cancelled. -/
theorem C74_no_early_end (k : Kind) (ls : List (Lbl α β)) (h : terms (exec k ls).log ≠ []) :
    .cancel ∈ (exec k ls).log ∨ ∃ ok, .done ok ∈ (exec k ls).log := by
  have hr := RInv.exec k ls
  rcases hr.termOf with h' | h' | ⟨-, ok, h', -⟩
  · exact absurd h' h
  · exact .inl (hr.canc.1 h'.1)
  · exact .inr ⟨ok, h'⟩

/-- C74 for the contract of observables: kept unless `OnCancel` comes while on_next is running.
Missing: just that case, see the refutation. -/
theorem C74_contract_partial (k : Kind) (ls : List (Lbl α β)) (h : ¬ CancelInside (exec k ls).log) :
    phase (exec k ls).log ≠ none := by
  rcases (RInv.exec k ls).phase with h' | h'
  · exact absurd h' h
  · rw [h'.1]; simp

/-- C74 for clients, which have no `OnCancel`. -/
theorem C74_client_contract (k : Kind) (hk : k.server = false) (ls : List (Lbl α β)) : phase (exec k ls).log ≠ none := by
  refine C74_contract_partial k ls ?_
  rintro ⟨l1, l2, hl, -⟩
  have hr := RInv.exec k ls
  have : (exec k ls).cancelled = true := hr.canc.2 (by rw [hl]; simp)
  rw [hr.client hk] at this
  cases this

/-- C74 fails: the subscribers of a server's reactor get on_error on one thread while on_next runs on another
(server_reactor.hpp 69-75, 93-100; `m_observer` of base.hpp 139 is not serialized). -/
theorem C74_contract_refutes : ∃ ls : List (Lbl Nat Nat), phase (exec .serverBidi ls).log = none :=
  ⟨[.onReadDone (some 1), .onCancel], by decide⟩

/-- A client reads two messages, then the call fails. -/
example :
    (exec (α := Nat) (β := Nat) .clientRead [.onReadDone (some 1), .readReturns, .onReadDone (some 2), .readReturns,
      .onReadDone none, .onDone false]).log
    = [.read, .got (some 1), .nextBegin 1, .nextEnd, .read, .got (some 2), .nextBegin 2, .nextEnd, .read, .got none,
        .done false, .term false] := by decide

/-- A cancelled server: the message read afterwards is not shown. -/
example :
    (exec (α := Nat) (β := Nat) .serverRead [.onReadDone (some 1), .readReturns, .onCancel, .onReadDone (some 2), .readReturns,
      .onReadDone none, .onDone true]).log
    = [.read, .got (some 1), .nextBegin 1, .nextEnd, .read, .cancel, .term false, .got (some 2), .read, .got none, .finish .ok,
        .done true] := by decide

/-! ## C75 -/

/-- C75: a server's reactor calls `Finish` at most once if the call is not cancelled, or if it is cancelled while the user has not
ended the stream and no write failed.
Missing: cancellation together with one of these, see the refutations. -/
theorem C75_partial (k : Kind) (ls : List (Lbl α β))
    (h : cancels (exec k ls).log = 0 ∨ (ends (exec k ls).log = [] ∧ failed (exec k ls).log = 0)) :
    (finishes k (exec k ls).log).length ≤ 1 := by
  have hf := FInv.exec k ls
  have hw := WInv.exec k ls
  have hb := hf.bal
  unfold Balanced at hb
  rw [hb]
  have h1 := wire_failed (exec k ls).log .idle (by have := hw.wire; unfold wire at this; rw [this]; simp)
  simp at h1
  have h2 := hf.canc
  have h3 : ends (exec k ls).log = [] → (closes (exec k ls).log).length = 0 := by
    intro he
    rw [C73_close]
    simp [he]
  have h4 : cancels (exec k ls).log ≤ 1 := by rw [h2]; split <;> omega
  by_cases hk : k = .serverRead
  · subst hk
    have h5 := hf.eof rfl
    have h6 := hf.wr rfl
    have h7 : eofs (exec .serverRead ls).log ≤ 1 := by rw [h5]; split <;> omega
    simp [Kind.server, Kind.writes, h6.2.2.2]
    omega
  · rw [if_neg hk]
    rcases h with h | ⟨h, h'⟩
    · rw [h]; repeat' split
      all_goals omega
    · have := h3 h
      rw [h', this]; repeat' split
      all_goals omega

/-- C75 for the reading server: without any condition. -/
theorem C75_server_read (ls : List (Lbl α β)) : (finishes .serverRead (exec .serverRead ls).log).length ≤ 1 := by
  have hf := FInv.exec .serverRead ls
  have hb := hf.bal
  unfold Balanced at hb
  rw [hb]
  have h5 := hf.eof rfl
  have h6 := hf.wr rfl
  have h7 : eofs (exec .serverRead ls).log ≤ 1 := by rw [h5]; split <;> omega
  simp [Kind.server, Kind.writes, h6.2.2.2]
  omega

/-- C75: a server is finished once the user ended the stream and every message was written. -/
theorem C75_finishes (k : Kind) (hk : k.server = true) (ls : List (Lbl α β)) (h1 : ends (exec k ls).log ≠ [])
    (h2 : acks (exec k ls).log = (taken (exec k ls).log).length) : finishes k (exec k ls).log ≠ [] := by
  have hb := (FInv.exec k ls).bal
  unfold Balanced at hb
  have hc := C73_close k ls
  rw [if_pos ⟨h1, h2⟩] at hc
  rw [if_pos hk, hc] at hb
  intro h0
  rw [h0, List.length_nil] at hb
  repeat' split at hb
  all_goals omega

/-- C75: a reading server is finished when the client has no more messages. -/
theorem C75_server_read_finishes (ls : List (Lbl α β)) (h : eofs (exec .serverRead ls).log ≠ 0) :
    finishes .serverRead (exec .serverRead ls).log ≠ [] := by
  have hb := (FInv.exec .serverRead ls).bal
  unfold Balanced at hb
  intro h0
  rw [h0] at hb
  simp at hb
  exact h (by omega)

/-- C75 fails: a cancelled call whose last write then succeeds is finished twice (server_reactor.hpp 93-100, base.hpp 60-63). -/
theorem C75_bidi_refutes : ∃ ls : List (Lbl Nat Nat), finishes .serverBidi (exec .serverBidi ls).log = [.cancelled, .ok] :=
  ⟨[.emit (.next 1), .deliver 0, .emit .completed, .deliverEnd, .onCancel, .onWriteDone true], by decide⟩

/-- C75 fails: a cancelled call whose write then fails is finished twice (server_reactor.hpp 143-149, 162-168). -/
theorem C75_write_refutes : ∃ ls : List (Lbl Nat Nat), finishes .serverWrite (exec .serverWrite ls).log = [.cancelled, .ok] :=
  ⟨[.emit (.next 1), .deliver 0, .onCancel, .onWriteDone false], by decide⟩

/-- A cancelled call finished once. -/
example : finishes .serverBidi (exec (α := Nat) (β := Nat) .serverBidi
    [.emit (.next 1), .deliver 0, .onWriteDone true, .onCancel]).log = [.cancelled] := by decide

/-! ## C76 -/

/-- C76: if no emission is on its way to the reactor when gRPC says `OnDone`, the deleted reactor is never touched, even if the
user goes on emitting.
Missing: emissions in progress on other threads at that moment, see the refutation. -/
theorem C76_partial (k : Kind) (ls : List (Lbl α β))
    (h : ∀ ls1 ok ls2, ls = ls1 ++ .onDone ok :: ls2 → (exec k ls1).pending = [] ∧ (exec k ls1).ending = none) :
    .useAfterFree ∉ (exec k ls).log := by
  suffices h : LInv (exec k ls) from h.noUaf
  revert h
  refine Sched.snoc_ind (P := fun ls => (∀ ls1 ok ls2, ls = ls1 ++ Lbl.onDone ok :: ls2 →
    (exec k ls1).pending = [] ∧ (exec k ls1).ending = none) → LInv (exec k ls)) ?_ ?_ ls
  · intro _
    cases k <;> constructor <;> simp [exec, init, Kind.reads]
  · intro ls l ih h
    have h1 := ih (fun ls1 ok ls2 he => h ls1 ok (ls2 ++ [l]) (by simp [he]))
    have : exec k (ls ++ [l]) = step k (exec k ls) l := by simp [exec]
    rw [this]
    exact h1.step k l (fun ok hl => h ls ok [] (by simp [hl]))

/-- C76 fails: an on_next that found the reactor's observer just before `OnDone` reaches the reactor after its deletion
(client_reactor.hpp 89-94, base.hpp 46-49, 68-77: the subject is disposed, but an emission in progress is not waited for). -/
theorem C76_refutes : ∃ ls : List (Lbl Nat Nat), .useAfterFree ∈ (exec .clientWrite ls).log :=
  ⟨[.emit (.next 1), .onDone false, .deliver 0], by decide⟩

/-- Emitting after the call is over is harmless. -/
example : (exec (β := Nat) .clientWrite [.emit (.next 1), .deliver 0, .onWriteDone false, .onDone false, .emit (.next 2),
    .deliver 0]).log = [.took (.next 1), .write 1, .wrote false, .done false, .term false] := by decide

end Rpp.Grpc
