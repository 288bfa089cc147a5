import Verif.Mutex.Spec
import Verif.WaitGroup.Spec
/-!
# C111: what the usual program with a mutex and a wait_group computes

The program (`f t` is the part of task `t`, any function of the shared data):

    S x = x0;  mutex m;  wait_group wg;
    lazy_task<> job(t)  { auto lk = co_await m.acquire(); S y = x; x = f(t, y); lk.unlock(); wg.done(); }
    lazy_task<> main()  { wg.add(n); for (t = 1..n) job(t).run(); co_await wg.wait(); total(x); }

on a runtime with any number of workers.  `wrote t`: job t has stored its result; `total v`: main has gone on after wait() and finds `v` in x.
-/

namespace Verif.EndToEnd

inductive Ev (S : Type) where
  | lock (e : Mutex.Ev)          -- what happens at the mutex
  | group (e : WaitGroup.Ev)     -- what happens at the wait_group
  | wrote (t : Nat)
  | total (v : S)

/-- The jobs that have stored, in the order of their stores. -/
def writer {S : Type} : Ev S → Option Nat
  | .wrote t => some t
  | _ => none

def writers {S : Type} (tr : List (Ev S)) : List Nat := tr.filterMap writer

/-- The jobs done one after the other, in the given order, without any concurrency. -/
def oneByOne {S : Type} (f : Nat → S → S) (x0 : S) (order : List Nat) : S := order.foldl (fun x t => f t x) x0

/-- The jobs that have called done(). -/
def doner {S : Type} : Ev S → Option Nat
  | .group (.doneCalled t _) => some t
  | _ => none

def doners {S : Type} (tr : List (Ev S)) : List Nat := tr.filterMap doner

def lockEv {S : Type} : Ev S → Option Mutex.Ev
  | .lock e => some e
  | _ => none

def groupEv {S : Type} : Ev S → Option WaitGroup.Ev
  | .group e => some e
  | _ => none

/-- The mutex' part of a trace. -/
def lockTrace {S : Type} (tr : List (Ev S)) : List Mutex.Ev := tr.filterMap lockEv

/-- main goes to sleep in wait() only while some job has not called done() yet. -/
def WaitsOnlyForJobs {S : Type} (n : Nat) (tr : List (Ev S)) : Prop := ∀ p, p ++ [Ev.group (.slept 0)] <+: tr → (doners p).length < n

end Verif.EndToEnd
