import Verif.Rpc.Requests
import Verif.Rpc.Stream
import Verif.Common.Strings

/-! How a message is handed to the server: `serverHandler.Deliver` of internal/lsp/protocol/server.go, and how the id
of a message is read and written (`ID` of internal/jsonrpc2/wire.go). -/

namespace Verif.Rpc

/-! ### The id of a message -/

/-- A JSON value in the place of an id. A number is the text of its literal, a string its contents (the escapes of
JSON strings are not modelled). -/
inductive JId where
  | null
  | num (lit : Bytes)
  | str (s : Bytes)
  | other
deriving DecidableEq, Repr

/-- `json.Unmarshal` of a number literal into an `int64`: `strconv.ParseInt(s, 10, 64)`. A literal of JSON has no
plus sign; with a fraction or an exponent it is an error. -/
def parseInt64 (s : Bytes) : Option Int :=
  let r : Option Int := match s with
    | 45 :: t => (parseDigits t).map fun n => - Int.ofNat n
    | t => (parseDigits t).map Int.ofNat
  r.filter fun n => decide (-9223372036854775808 ≤ n ∧ n ≤ 9223372036854775807)

/-- The pointer field `ID *ID` of `combined`, jsonrpc2.go 295-302, and `ID.UnmarshalJSON`, wire.go 132-138. The outer
`none`: the message is dropped (`Run`, jsonrpc2.go 322-330). The inner `none`: no id, a notification. A missing id is
read like `null`. -/
def readId : JId → Option (Option ID)
  | .null => some none
  | .num l => (parseInt64 l).map fun n => some ⟨[], n⟩
  | .str s => some (some ⟨s, 0⟩)
  | .other => none

/-- `ID.MarshalJSON`, wire.go 125-130 -/
def writeId (id : ID) : JId := if id.name ≠ [] then .str id.name else .num (itoa id.number)

/-! ### The dispatch -/

/-- The parameters of a message: missing or `null` (a nil pointer), not of the shape that the method wants (an error
of `json.Unmarshal`), or fine. -/
inductive Params where
  | absent | bad | good
deriving DecidableEq, Repr

/-- What `Deliver` does: it calls the method of the server with the name `m`, it calls `Reply` (with the context of
the request or with a detached one), it writes to the log. -/
inductive Action where
  | serve (m : Bytes)
  | reply (detached : Bool)
  | log
deriving DecidableEq, Repr

/-- The cases of server.go 76-200 that are marked as notifications and read parameters. -/
def notifMethods : List Bytes :=
  [b!"workspace/didChangeWorkspaceFolders", b!"initialized", b!"workspace/didChangeConfiguration",
   b!"textDocument/didOpen", b!"textDocument/didChange", b!"textDocument/didClose", b!"textDocument/didSave",
   b!"textDocument/willSave", b!"workspace/didChangeWatchedFiles", b!"$/progress", b!"$/setTraceNotification",
   b!"$/logTraceNotification"]

/-- The cases of server.go 201-540 that are requests and read parameters. -/
def callMethods : List Bytes :=
  [b!"textDocument/implementation", b!"textDocument/typeDefinition", b!"textDocument/documentColor",
   b!"textDocument/colorPresentation", b!"textDocument/foldingRange", b!"textDocument/declaration",
   b!"textDocument/selectionRange", b!"initialize", b!"textDocument/willSaveWaitUntil", b!"textDocument/completion",
   b!"completionItem/resolve", b!"textDocument/hover", b!"textDocument/signatureHelp", b!"textDocument/definition",
   b!"textDocument/references", b!"textDocument/documentHighlight", b!"textDocument/documentSymbol",
   b!"textDocument/codeAction", b!"workspace/symbol", b!"textDocument/codeLens", b!"codeLens/resolve",
   b!"textDocument/documentLink", b!"documentLink/resolve", b!"textDocument/formatting",
   b!"textDocument/rangeFormatting", b!"textDocument/onTypeFormatting", b!"textDocument/rename",
   b!"textDocument/prepareRename", b!"workspace/executeCommand", b!"documentSignatures"]

/-- `sendParseError`, protocol.go 41-52 -/
def sendParseError (isNotify : Bool) : List Action := if isNotify then [.log] else [.reply false]

/-- `serverHandler.Deliver`, server.go 63-545, followed by `defaultHandler.Deliver`, jsonrpc2/handler.go 116-124, if
the server does not know the method. `none`: the program panics. Whether the method of the server logs an error, and
the error that `Reply` returns, are left out. -/
def deliver (m : Bytes) (isNotify cancelled : Bool) (p : Params) : Option (List Action) :=
  -- server.go 67-71
  if cancelled then some [.reply true]
  else if m = b!"exit" then some [.serve m]
  else if m = b!"shutdown" then
    if p ≠ .absent then some [.reply false] else some [.serve m, .reply false]
  else if m ∈ notifMethods then
    match p with
    -- `*r.Params` with a nil pointer
    | .absent => none
    | .bad => some (sendParseError isNotify)
    | .good => some [.serve m]
  else if m ∈ callMethods then
    match p with
    | .absent => none
    | .bad => some (sendParseError isNotify)
    | .good => some [.serve m, .reply false]
  -- handler.go 120-122
  else some (if isNotify then [] else [.reply false])

end Verif.Rpc
