import Verif.Common.Trace
/-!
# Calls of the library do not dead-lock each other (C100)

A thread is either outside of the library or inside one call of it.  `Call` lists the calls, `Op` the functions of the library that user code calls; where the library calls user code
(functions of a user event loop; destructors of the local variables of a task or of a generator that is destroyed) the call says, as a list of `Op`s, what that code does.
-/

namespace Verif.Locks

/-- a function of the library called by user code -/
inductive Op where
  | enqueue (q : Nat)                       -- a task becomes ready (task::run(), mutex unlock, wait_group::done(), task_scheduler::enqueue ...) and is put into queue `q`
  | setResult (f : Nat) (wake : Option Nat) -- the result of future `f` is set; a task waiting for it goes to queue `wake`
  | await (f : Nat) (wake : Option Nat)     -- a task waits for future `f` (and goes to queue `wake` because the result is there)
  | take (f : Nat)                          -- the result of future `f` is taken
  | shared (m : Nat) (wake : List Nat)      -- acquire or release of shared_mutex `m`; tasks made ready go to the queues `wake`
  | firstAcquire (m : Nat)                  -- the first acquire() of mutex `m`
  | destroyMutex                            -- a mutex is destroyed
  | sleep (w : Nat)                         -- a task starts to sleep on worker `w`
  | uring (w : Nat)                         -- a task starts io_uring operations on worker `w`
  | dirAcquire (d q : Nat)                  -- acquire of dir_mutex `d` finds it taken: a poller is started in queue `q`
  | genUse (g : Nat)                        -- has_value(), co_await next_value_async(), co_yield of generator `g`
  | genDestroy (g : Nat) (locals : List Op) -- generator `g` is destroyed: what the destructors of its local variables do
  | addLoop (prep : List Op)                -- a user event loop is added: what its thread_specific_preparation() does
  | awaitTask (k : Nat)                     -- blocks the thread until task `k` has ended (future::get(), task::result(), ~dir_mutex, dir_mutex_guard::unlock())

/-- a call of a thread -/
inductive Call where
  | op (o : Op)
  /-- a worker starts; `prep`: thread_specific_preparation() of the user loops -/
  | workerStart (w q : Nat) (prep : List Op)
  /-- one pass of worker `w` through its loop in which it found a task: due timers and completions go to the queues `timers` and `compl`, `user` is done by the user loops'
  do_occured_nonblk(), the task is searched for in the queues `qs`, and is the end of task `ends` -/
  | work (w : Nat) (timers : Option (List Nat)) (compl : List Nat) (user : List Op) (qs : List Nat) (ends : Option Nat)
  /-- one pass of worker `w` in which it found nothing to do; `sleep`: max_sleep_duration() of the user loops; `status`: print_status() of the user loops, if printed, and the workers -/
  | rest (w : Nat) (timers : Option (List Nat)) (compl : List Nat) (user : List Op) (qs : List Nat) (sleep : List Op) (status : Option (List Nat × List Op))
  /-- stop(), quick_stop() or until_done() of the user loops, as part of stopping the runtime -/
  | stopLoops (user : List Op)
  /-- quick_stop() of the timers, as part of stopping the runtime: the sleeping tasks are destroyed; `locals`: what the destructors of their local variables do -/
  | dropTimers (locals : List Op)

mutual
/-- what the destructors of local variables may do: anything but start to sleep, add a user loop, or wait for a task.  `h`: how deep generators are nested in the
frame of a generator; a generator inside the frame of another one is less deep.  (In a destructor one cannot co_await, so `sleep` does not occur anyway.) -/
def Op.quiet (h : Nat → Nat) (bound : Nat → Prop) : Op → Prop
  | .genDestroy g locals => bound (h g) ∧ Op.quiets h (· < h g) locals
  | .genUse g => bound (h g)
  | .sleep _ => False
  | .uring _ => False
  | .dirAcquire _ _ => False
  | .addLoop _ => False
  | .awaitTask _ => False
  | _ => True

def Op.quiets (h : Nat → Nat) (bound : Nat → Prop) : List Op → Prop
  | [] => True
  | o :: os => Op.quiet h bound o ∧ Op.quiets h bound os
end

/-- what a user loop's functions may do: anything but add a user loop or wait for a task -/
def Op.inLoop (h : Nat → Nat) : Op → Prop
  | .genDestroy g locals => Op.quiets h (· < h g) locals
  | .addLoop _ => False
  | .awaitTask _ => False
  | _ => True

/-- what a task (or any other thread) may do: anything -/
def Op.free (h : Nat → Nat) : Op → Prop
  | .genDestroy g locals => Op.quiets h (· < h g) locals
  | .addLoop prep => ∀ o ∈ prep, o.inLoop h
  | _ => True

/-- the user code called back by the library keeps to the rules -/
def Call.Fine (h : Nat → Nat) : Call → Prop
  | .op o => o.free h
  | .workerStart _ _ prep => ∀ o ∈ prep, o.inLoop h
  | .work _ _ _ user _ _ => ∀ o ∈ user, o.inLoop h
  | .rest _ _ _ user _ sleep status => (∀ o ∈ user, o.inLoop h) ∧ (∀ o ∈ sleep, o.inLoop h) ∧ ∀ st ∈ status, ∀ o ∈ st.2, o.inLoop h
  | .stopLoops user => ∀ o ∈ user, o.inLoop h
  | .dropTimers locals => Op.quiets h (fun _ => True) locals

inductive Ev where
  | called (t : Nat) (c : Call)
  | returned (t : Nat)

end Verif.Locks
