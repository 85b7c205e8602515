import Mathlib.Data.List.Basic
import Mathlib.Data.List.Nodup

/-!
# Connections to analysis servers (C47, C64, C65)

Models `AnalysisSocketInfo` from `/repo/include/tsar/Analysis/AnalysisSocket.h`, the class
`SMStringSocketBase` from `/repo/include/tsar/Support/SMStringSocket.h` and the passes which close
connections from `/repo/lib/Analysis/AnalysisSocket.cpp`.
-/

namespace Tsar.Socket

/-! ## List of sockets -/

/-- `AnalysisSocketInfo` (`AnalysisSocket.h:154-227`): servers with their sockets and
`mActiveIdx`, the number of the active socket plus one, zero if there is no active socket. -/
structure Info (σ : Type) where
  sockets : List (ℕ × σ)
  active : ℕ

variable {σ : Type}

/-- An empty list. -/
def Info.empty : Info σ := ⟨[], 0⟩

/-- `find` (`AnalysisSocket.h:182-194`): the position, `none` is `end()`. -/
def Info.find (s : Info σ) (id : ℕ) : Option ℕ := s.sockets.findIdx? fun p => p.1 == id

/-- `emplace` (`AnalysisSocket.h:160-174`): new state, the position of the socket and whether it is
new.  `fresh` is a default constructed socket. -/
def Info.emplace (s : Info σ) (fresh : σ) (id : ℕ) (isActive : Bool) : Info σ × ℕ × Bool :=
  match s.find id with
  | some i => (if isActive then { s with active := i + 1 } else s, i, false)
  | none =>
    ({ sockets := s.sockets ++ [(id, fresh)],
       active := if isActive then s.sockets.length + 1 else s.active }, s.sockets.length, true)

/-- `operator[]` (`AnalysisSocket.h:202-204`). -/
def Info.get (s : Info σ) (fresh : σ) (id : ℕ) : Info σ × ℕ :=
  let r := s.emplace fresh id false
  (r.1, r.2.1)

/-- Result of an operation which may be undefined. -/
inductive Res (α : Type)
  | value (a : α)
  | undefined
  deriving DecidableEq

/-- `getActive` (`AnalysisSocket.h:206-207`): `begin() + mActiveIdx - 1`.  Zero `mActiveIdx` gives an
iterator before the beginning, whose computation is undefined (a fortiori, it is not `end()`). -/
def Info.getActive (s : Info σ) : Res (Option ℕ) :=
  if s.active = 0 then .undefined
  else .value (if s.active - 1 < s.sockets.length then some (s.active - 1) else none)

/-- `getActiveSocket` (`AnalysisSocket.h:216-222`). -/
def Info.getActiveSocket (s : Info σ) : Res (Option ℕ) := s.getActive

/-- `setActive` (`AnalysisSocket.h:209-214`): the function has no `return` after a successful
search, so its result is undefined. -/
def Info.setActive (s : Info σ) (id : ℕ) : Info σ × Res Bool :=
  match s.find id with
  | none => (s, .value false)
  | some i => ({ s with active := i + 1 }, .undefined)

/-- Operations which change the list. -/
inductive Op
  | emplace (id : ℕ) (isActive : Bool)
  | get (id : ℕ)
  | setActive (id : ℕ)

/-- Execution of an operation. -/
def Info.exec (fresh : σ) (s : Info σ) : Op → Info σ
  | .emplace id a => (s.emplace fresh id a).1
  | .get id => (s.get fresh id).1
  | .setActive id => (s.setActive id).1

/-- Execution of a history. -/
def Info.run (fresh : σ) (ops : List Op) : Info σ := ops.foldl (Info.exec fresh) Info.empty

/-! Specification: which servers were mentioned, and which one was activated last. -/

/-- Servers which obtain a socket. -/
def known (ops : List Op) (id : ℕ) : Prop :=
  ∃ op ∈ ops, (∃ a, op = .emplace id a) ∨ op = .get id

/-- The server of the last activating operation.  Activation of an unknown server does nothing. -/
inductive LastActive : List Op → Option ℕ → Prop
  | nil : LastActive [] none
  | emplace {ops id} : LastActive (ops ++ [.emplace id true]) (some id)
  | set {ops id} : known ops id → LastActive (ops ++ [.setActive id]) (some id)
  | skipEmplace {ops id r} : LastActive ops r → LastActive (ops ++ [.emplace id false]) r
  | skipGet {ops id r} : LastActive ops r → LastActive (ops ++ [.get id]) r
  | skipSet {ops id r} : ¬ known ops id → LastActive ops r → LastActive (ops ++ [.setActive id]) r

/-! ## Passes which close connections -/

/-- `AnalysisCloseConnectionPass` (`AnalysisSocket.cpp:173-218`).  `activeOnly` is `none` if the
member has not been initialised. -/
structure ClosePass where
  server : Option ℕ
  activeOnly : Option Bool
  deriving DecidableEq

/-- Constructor with the flag (`AnalysisSocket.cpp:178-181`). -/
def ClosePass.ofFlag (activeOnly : Bool) : ClosePass := ⟨none, some activeOnly⟩

/-- Constructor with the server (`AnalysisSocket.cpp:183-186`): `mActiveOnly` is not initialised. -/
def ClosePass.ofServer (id : ℕ) : ClosePass := ⟨some id, none⟩

/-- `createAnalysisCloseConnectionPass(bool)` (`AnalysisSocket.cpp:299-301`): the argument is
ignored, the default one is used. -/
def createClosePass (_activeOnly : Bool) : ClosePass := .ofFlag false

/-- `createAnalysisCloseConnectionPass(AnalysisID)` (`AnalysisSocket.cpp:303-305`). -/
def createClosePassFor (id : ℕ) : ClosePass := .ofServer id

/-- `runOnModule` (`AnalysisSocket.cpp:188-209`): positions of sockets which are closed;
`undefined` if there is no active socket.  `garbage` is the value an uninitialised flag happens to
have. -/
def ClosePass.run (p : ClosePass) (garbage : Bool) (s : Info σ) : Res (List ℕ) :=
  if p.activeOnly.getD garbage then
    match s.getActive with
    | .undefined => .undefined
    | .value none => .value []
    | .value (some i) => .value [i]
  else match p.server with
    | some id => .value (s.find id).toList
    | none => .value (List.range s.sockets.length)

/-! ## Socket -/

/-- `MessageKind` of a response (`SMStringSocket.h:43-50`). -/
inductive Kind
  | notify
  | data
  | other
  deriving DecidableEq

/-- A response of a server: its kind and, for `Data`, the list of addresses of analysis results.
(The encoding of the list is not modelled; a response which cannot be parsed
has the empty list.) -/
structure Response where
  kind : Kind
  analysis : List ℕ
  deriving DecidableEq

/-- Requests of a client. -/
inductive Request
  | wait
  | release
  | analysis (ids : List ℕ)
  deriving DecidableEq

/-- A registered callback: the server answers a request by some responses, which may depend on all
previous requests.  `send` is called for each of them in the thread of the client. -/
abbrev Handler := List Request → List Response

/-- State of a socket (`SMStringSocket.h:139-142`, `AnalysisSocket.h:150`): callbacks,
`mResponseKind` (`none` if it has not been initialised) and `mAnalysis`. -/
structure Sock where
  handlers : List Handler
  kind : Option Kind
  analysis : List ℕ
  sent : List Request

/-- `send` and `processResponse` (`SMStringSocket.h:87-93`, `AnalysisSocket.h:85-93`). -/
def Sock.send (s : Sock) (r : Response) : Sock :=
  { s with kind := some r.kind, analysis := if r.kind = .data then r.analysis else s.analysis }

/-- Invocation of all callbacks (`SMStringSocket.h:121-122`, `AnalysisSocket.h:107-108`). -/
def Sock.call (s : Sock) (r : Request) : Sock :=
  let s' := { s with sent := s.sent ++ [r] }
  (s.handlers.flatMap fun h => h s'.sent).foldl Sock.send s'

/-- `close` (`SMStringSocket.h:100-105`). -/
def Sock.close (s : Sock) : Sock := { s with handlers := [] }

/-- `wait` and `release` (`SMStringSocket.h:118-137`): a request is repeated until the last response
is `Notify`.  `Until r s s'` says that the function finishes in the state `s'`; reading of an
uninitialised `mResponseKind` does not finish. -/
inductive Until (r : Request) : Sock → Sock → Prop
  | stop {s : Sock} : (s.call r).kind = some .notify → Until r s (s.call r)
  | again {s s' : Sock} : (s.call r).kind ≠ some .notify → Until r (s.call r) s' → Until r s s'

/-- `getAnalysis` (`AnalysisSocket.h:95-120`): the new state, and the returned list if its size is
right (the assertion about `mResponseKind` is absent in a release build). -/
def Sock.getAnalysis (s : Sock) (ids : List ℕ) : Sock × Option (List ℕ) :=
  let s' := s.call (.analysis ids)
  (s', if s'.analysis.length = ids.length then some s'.analysis else none)

end Tsar.Socket
