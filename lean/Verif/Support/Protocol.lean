import Mathlib.Data.List.Basic
import Mathlib.Logic.Relation

/-!
# Synchronisation of a client and an analysis server (C67)

Models the order of messages between passes of a client
(`/repo/lib/Analysis/AnalysisSocket.cpp`) and passes of a server
(`/repo/include/tsar/Analysis/AnalysisServer.h`,
`/repo/lib/Analysis/Memory/DIMemoryAnalysisServer.cpp`, `/repo/lib/APC/MemoryServer.h`).

The client and the server are two threads.  A request is a rendezvous: `Callback(...)` in the client
returns after `answer(...)` in the server has processed the request and its response has been stored
in the socket (this is a contract of `bcl::IntrusiveConnection`, which is not in the repository).
-/

namespace Tsar.Protocol

/-- Steps of a server: an arbitrary pass, `AnalysisNotifyClientPass`
(`AnalysisSocket.cpp:65-81`), `AnalysisResponsePass` (`AnalysisServer.h:247-340`). -/
inductive SStep
  | work (k : ℕ)
  | notify
  | respond
  deriving DecidableEq

/-- Steps of a client: an arbitrary pass, `AnalysisWaitServerPass`, a request of analysis,
`AnalysisReleaseServerPass`, `AnalysisCloseConnectionPass` (`AnalysisSocket.cpp:89-218`). -/
inductive CStep
  | work (k : ℕ)
  | wait
  | request (k : ℕ)
  | release
  | close
  deriving DecidableEq

/-- A state: remaining steps of the client and of the server, or the server has reached
`llvm_unreachable` (`AnalysisSocket.cpp:76`, `AnalysisServer.h:266`). -/
inductive St
  | running (c : List CStep) (s : List SStep)
  | unreachable
  deriving DecidableEq

/-- Steps of the system, in any order of threads.

* The request `wait` is processed by `AnalysisNotifyClientPass`, which finishes
  (`AnalysisSocket.cpp:69-79`); `close` waits for a notification as well
  (`AnalysisSocket.cpp:203-206`).
* A request of analysis and the request `release` are processed by `AnalysisResponsePass`, the second
  one finishes it (`AnalysisServer.h:255-268`).
* Any other request is an error. -/
inductive Step : St → St → Prop
  | client {k c s} : Step (.running (.work k :: c) s) (.running c s)
  | server {k c s} : Step (.running c (.work k :: s)) (.running c s)
  | wait {c s} : Step (.running (.wait :: c) (.notify :: s)) (.running c s)
  | close {c s} : Step (.running (.close :: c) (.notify :: s)) (.running c s)
  | request {k c s} :
      Step (.running (.request k :: c) (.respond :: s)) (.running c (.respond :: s))
  | release {c s} : Step (.running (.release :: c) (.respond :: s)) (.running c s)
  | badRequest {k c s} : Step (.running (.request k :: c) (.notify :: s)) .unreachable
  | badRelease {c s} : Step (.running (.release :: c) (.notify :: s)) .unreachable
  | badWait {c s} : Step (.running (.wait :: c) (.respond :: s)) .unreachable
  | badClose {c s} : Step (.running (.close :: c) (.respond :: s)) .unreachable

/-- Reachability. -/
abbrev Reach : St → St → Prop := Relation.ReflTransGen Step

/-- Passes of `AnalysisServer::runOnModule` (`AnalysisServer.h:97-118`): `prepare` and `initialise`
(numbers of initial passes), passes of a derived server, `prepareToClose`. -/
def serverOf (init : List ℕ) (passes : List SStep) (toClose : List ℕ) : List SStep :=
  init.map .work ++ [.notify] ++ passes ++ toClose.map .work ++ [.notify]

/-- `DIMemoryAnalysisServer::addServerPasses` (`DIMemoryAnalysisServer.cpp:156-179`). -/
def diMemoryPasses (analysis verify : List ℕ) : List SStep :=
  analysis.map .work ++ [.notify] ++ verify.map .work ++ [.respond]

/-- `DVMHMemoryServer::addServerPasses` (`APC/MemoryServer.h:126-150`). -/
def dvmhPasses (analysis init1 analysis2 init2 : List ℕ) : List SStep :=
  analysis.map .work ++ [.notify] ++ init1.map .work ++ [.respond] ++
    analysis2.map .work ++ [.notify] ++ init2.map .work ++ [.respond]

/-- What passes of a client do between synchronisations: own work and requests of analysis. -/
inductive Use
  | work (k : ℕ)
  | request (k : ℕ)

/-- Corresponding steps. -/
def Use.step : Use → CStep
  | .work k => .work k
  | .request k => .request k

/-- Passes of a client which uses `DIMemoryAnalysisServer`: `addBeforePass`, the main passes, and
`addAfterPass` (`LoopReversal.cpp:89-107`, `LoopInterchange.cpp:89-107`,
`SharedMemoryAutoPar.cpp:84-103`, `DVMHAutoPar.cpp:604-622`, `Query.cpp:317-332`,
`tools/tsar-server/Server.cpp:131-148`).  `before` runs before the first synchronisation, `between`
(`createMemoryMatcherPass`) before the second one. -/
def diMemoryClient (before between : List ℕ) (main : List Use) (after : List ℕ) : List CStep :=
  before.map .work ++ [.wait] ++ between.map .work ++ [.wait] ++ main.map Use.step ++
    [.release] ++ [.close] ++ after.map .work

/-- Passes of a client which uses `DVMHMemoryServer` (`ClangDVMHWriter.cpp:330-356`). -/
def dvmhClient (before between : List ℕ) (first second : List Use) (after : List ℕ) : List CStep :=
  before.map .work ++ [.wait] ++ between.map .work ++ [.wait] ++ first.map Use.step ++
    [.release] ++ [.wait] ++ second.map Use.step ++ [.release] ++ [.close] ++ after.map .work

/-! ## Specification -/

/-- Messages a client sends, one after another. -/
def messages (c : List CStep) : List CStep := c.filter fun
  | .work _ => false
  | _ => true

/-- Passes of a server which communicate. -/
def stages (s : List SStep) : List SStep := s.filter fun
  | .work _ => false
  | _ => true

/-- A list of messages fits a list of stages: each notification is awaited once, each response pass
obtains some requests and one release. -/
inductive Fits : List CStep → List SStep → Prop
  | nil : Fits [] []
  | wait {c s} : Fits c s → Fits (.wait :: c) (.notify :: s)
  | close {c s} : Fits c s → Fits (.close :: c) (.notify :: s)
  | respond {ks : List ℕ} {c s} : Fits c s →
      Fits (ks.map .request ++ .release :: c) (.respond :: s)

/-- The run is correct: under every schedule the error is not reached, threads are never blocked for
ever, and there is no infinite run. -/
structure Correct (c : List CStep) (s : List SStep) : Prop where
  safe : ¬ Reach (.running c s) .unreachable
  live : ∀ t, Reach (.running c s) t → t = .running [] [] ∨ ∃ t', Step t t'
  terminates : ∃ n : ℕ, ∀ (k : ℕ) (f : ℕ → St), f 0 = .running c s →
    (∀ i < k, Step (f i) (f (i + 1))) → k ≤ n

end Tsar.Protocol
