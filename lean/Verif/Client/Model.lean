/-!
# Clients of a remote signer

`manta-pay/src/signer/client/{websocket,http,network}.rs`. Requests are a command and a body; `ser` and `de` are
`serde_json::to_string` of a request and `serde_json::from_str` into the type of the answer to a command. The other end
of a WebSocket is a server that answers every text message with one text message, in order; it may use all it has read
so far (`serve`). Between the answers control frames, binary frames and protocol errors may come in.
-/

namespace Verif.Client

/-- What `WebSocketStream::next` yields: a text message, another message (ping, pong, binary, close), or an error. -/
inductive Item
  | text (s : String)
  | other
  | err
  deriving DecidableEq, Repr

/-- `Error`, websocket.rs:51-67. -/
inductive Error
  | format
  | endOfStream
  | serialization
  | websocket
  deriving DecidableEq, Repr

/-- `Client` of websocket.rs:94-97: what was written to the stream, and what came in and is not yet read. -/
structure Ws where
  sent : List String
  inbox : List Item

/-- A connection just opened, websocket.rs:100-107. -/
def Ws.new : Ws := ⟨[], []⟩

variable {Req Resp : Type}

/-- The `match` on `next`, websocket.rs:122-127. -/
def read (de : String → String → Option Resp) (command : String) : List Item → List Item × Except Error Resp
  | .text s :: rest => (rest, match de command s with | some d => .ok d | none => .error .serialization)
  | .other :: rest => (rest, .error .format)
  | .err :: rest => (rest, .error .websocket)
  | [] => ([], .error .endOfStream)

/-- `send`, websocket.rs:109-128. `accepted`: the sink takes the message; `arrived`: what comes in before `next` is
polled for the last time (nothing if the stream has ended). -/
def Ws.send (ser : String → Req → Option String) (de : String → String → Option Resp) (w : Ws) (command : String)
    (request : Req) (accepted : Bool) (arrived : List Item) : Ws × Except Error Resp :=
  match ser command request with
  | none => (w, .error .serialization)
  | some m =>
    if accepted then
      let r := read de command (w.inbox ++ arrived)
      (⟨w.sent ++ [m], r.1⟩, r.2)
    else (w, .error .websocket)

/-- The same future, dropped by the caller after the message was written and before an item was taken. -/
def Ws.abandon (ser : String → Req → Option String) (w : Ws) (command : String) (request : Req) (arrived : List Item) :
    Ws :=
  match ser command request with
  | none => w
  | some m => ⟨w.sent ++ [m], w.inbox ++ arrived⟩

/-- Frames that are not answers. -/
inductive Noise
  | other
  | err
  deriving DecidableEq, Repr

def Noise.item : Noise → Item
  | .other => .other
  | .err => .err

/-- A request on an open connection, with the frames that come in before and after its answer. `waits`: the caller waits
for the result. -/
structure Ev (Req : Type) where
  command : String
  request : Req
  waits : Bool
  pre : List Noise
  post : List Noise

/-- The server and the network: the answer to the last message, surrounded by other frames. -/
def arrivals (serve : List String → String) (sent : List String) (m : String) (e : Ev Req) : List Item :=
  e.pre.map Noise.item ++ .text (serve (sent ++ [m])) :: e.post.map Noise.item

/-- A connection in use. Requests are serializable. The results of the requests that were waited for. -/
def run (enc : String → Req → String) (de : String → String → Option Resp) (serve : List String → String) :
    Ws → List (Ev Req) → Ws × List (Except Error Resp)
  | w, [] => (w, [])
  | w, e :: es =>
    let arr := arrivals serve w.sent (enc e.command e.request) e
    if e.waits then
      let r := w.send (fun c q => some (enc c q)) de e.command e.request true arr
      let rs := run enc de serve r.1 es
      (rs.1, r.2 :: rs.2)
    else run enc de serve (w.abandon (fun c q => some (enc c q)) e.command e.request arr) es

/-! ## HTTP -/

/-- `Network`, network.rs:33-43. -/
inductive Network
  | dolphin
  | calamari
  | manta
  deriving DecidableEq, Repr

/-- `From<Network> for usize`, network.rs:56-65. -/
def Network.toNat : Network → Nat
  | .dolphin => 0
  | .calamari => 1
  | .manta => 2

/-- `NetworkSpecific`, network.rs:85-95. -/
structure Specific (α : Type) where
  dolphin : α
  calamari : α
  manta : α

/-- `Index`, network.rs:97-108. -/
def Specific.get {α : Type} (s : Specific α) : Network → α
  | .dolphin => s.dolphin
  | .calamari => s.calamari
  | .manta => s.manta

/-- An assignment through `IndexMut`, network.rs:110-119. -/
def Specific.set {α : Type} (s : Specific α) (n : Network) (x : α) : Specific α :=
  match n with
  | .dolphin => { s with dolphin := x }
  | .calamari => { s with calamari := x }
  | .manta => { s with manta := x }

/-- `Message`, network.rs:127-134. -/
structure Message (α : Type) where
  network : Network
  message : α
  deriving DecidableEq, Repr

/-- `Client` of http.rs:43-50; the URL is that of the server. -/
structure Http where
  url : String
  network : Option Network

/-- `new`, http.rs:54-63. -/
def Http.new (url : String) : Http := ⟨url, none⟩

/-- `set_network`, http.rs:65-69. -/
def Http.setNetwork (c : Http) (n : Option Network) : Http := { c with network := n }

/-- `wrap_request`, http.rs:71-80; `none` is the panic of `expect`. -/
def Http.wrap {α : Type} (c : Http) (request : α) : Option (Message α) :=
  match c.network with
  | some n => some ⟨n, request⟩
  | none => none

/-- Uses of an HTTP client. -/
inductive Op (α : Type)
  | network (n : Option Network)
  | post (command : String) (request : α)

/-- `post_request` (http.rs:82-90) and `set_network` in any order: the messages that are sent, with the command that
`KnownUrlClient::post` (manta-util/src/http/reqwest.rs:48-100) joins to the URL, or a panic. -/
def Http.run {α : Type} : Http → List (Op α) → Option (List (String × Message α))
  | _, [] => some []
  | c, .network n :: os => (c.setNetwork n).run os
  | c, .post cmd r :: os =>
    match c.wrap r with
    | none => none
    | some m =>
      match c.run os with
      | none => none
      | some ms => some ((cmd, m) :: ms)

end Verif.Client
