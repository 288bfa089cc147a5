import Verif.TcpUtil.Spec
import Verif.Common.Machine
/-!
# Model of deplete_send_buffer (src/tcp_util.cc 14-41)

`timeout` is the argument in ms.  Simplified: `now + timeout` does not overflow (with a time-out of about 292 years it would); the caller's error code is 0 before.
-/

namespace Verif.TcpUtil

inductive Pc where
  | begin
  | query          -- 26: about to call ioctl
  | test           -- 35: about to read the clock
  | sleeping       -- 37
  | done
  deriving DecidableEq, Repr

structure St where
  pc : Pc
  deadline : Int   -- timeout_tp, ns

inductive Lbl where
  | clock (n : Int)
  | queue (k : Nat)
  | error (e : Nat)
  | wake
  deriving DecidableEq, Repr

def ms : Int := 1000000

def step (timeout : Int) (s : St) : Lbl → Option (St × List Ev)
  | .clock n =>
    match s.pc with
    | .begin => some (⟨.query, n + timeout * ms⟩, [.clock n])                -- 19-20
    | .test =>                                                               -- 35-39
      if n + ms < s.deadline then some ({ s with pc := .sleeping }, [.clock n, .slept])
      else some ({ s with pc := .done }, [.clock n, .returned false 0])
    | _ => none
  | .queue k =>
    match s.pc with
    | .query => if k = 0 then some ({ s with pc := .done }, [.queue k, .returned true 0]) else some ({ s with pc := .test }, [.queue k])   -- 31-34
    | _ => none
  | .error e =>
    match s.pc with
    | .query => if e ≠ 0 then some ({ s with pc := .done }, [.ioctlError e, .returned false e]) else none   -- 26-30; errno is not 0
    | _ => none
  | .wake =>
    match s.pc with
    | .sleeping => some ({ s with pc := .query }, [])
    | _ => none

def machine (timeout : Int) : Machine St Lbl Ev := ⟨⟨.begin, 0⟩, step timeout⟩

end Verif.TcpUtil
