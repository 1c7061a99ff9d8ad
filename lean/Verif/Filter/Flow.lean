import Verif.Filter.Chain
/-!
# What servers and clients do between filters

A flow is a program whose only effects are running the filters of a point, events, and decisions that come from outside
(whether a body can be decoded, whether a queue has room, what the user does). `ask` stands for such a decision; its text
is documentation. Theorems are about all answers.
-/

namespace Verif.Filter

inductive Prog (α : Type) where
  | ret (a : α)
  | run (p : Nat) (k : Bool → Prog α)
  | emit (e : Ev) (k : Prog α)
  | ask (k : Bool → Prog α)

namespace Prog

def bind {α β : Type} : Prog α → (α → Prog β) → Prog β
  | .ret a, f => f a
  | .run p k, f => .run p fun r => (k r).bind f
  | .emit e k, f => .emit e (k.bind f)
  | .ask k, f => .ask fun b => (k b).bind f

instance : Monad Prog where
  pure := .ret
  bind := bind

/-- A course of a flow; `ch n` is the answer to the question number `n`. -/
def exec {α : Type} (e : Env) (ch : Nat → Bool) : Prog α → Ctx → Ctx
  | .ret _, c => c
  | .run p k, c => exec e ch (k (runFilters e p c).2) (runFilters e p c).1
  | .emit ev k, c => exec e ch k (c.emit ev)
  | .ask k, c => exec e ch (k (ch c.n)) { c with n := c.n + 1 }

end Prog

def ask (_what : String) : Prog Bool := .ask .ret
def emit (e : Ev) : Prog Unit := .emit e (.ret ())

/-- `RunMessageServerFilters`/`RunMessageClientFilters`; the result: `REJECT`. -/
def run (p : Nat) : Prog Bool := .run p .ret

/-- The same, the result being ignored. -/
def run' (p : Nat) : Prog Unit := .run p fun _ => .ret ()

/-! ## Servers

Points (filter/filter_point.h:43-56, without the prefix). -/

abbrev POST_RECV_MSG := 0
abbrev PRE_SEND_MSG := 1
abbrev PRE_RPC_INVOKE := 2
abbrev POST_RPC_INVOKE := 3
abbrev PRE_SCHED_RECV_MSG := 4
abbrev POST_SCHED_RECV_MSG := 5
abbrev PRE_SCHED_SEND_MSG := 6
abbrev POST_SCHED_SEND_MSG := 7
abbrev PRE_IO_SEND_MSG := 8
abbrev POST_IO_SEND_MSG := 9

/-- `context->GetStatus()`, as far as the flow looks at it. -/
inductive Status where
  | ok | decode | other
  deriving DecidableEq

def anyStatus : Prog Status := do
  if ← ask "the status is OK" then return .ok
  if ← ask "the status is DECODE_ERROR" then return .decode
  return .other

/-- Filters at a pre point may change the status. `disc` (disciplined filters): a filter that rejects leaves an error that
is not `DECODE_ERROR`, and filters do not touch a status that is an error already. -/
def runSt (disc : Bool) (st : Status) (p : Nat) : Prog (Bool × Status) := do
  let rej ← run p
  if disc && rej then return (rej, .other)
  if disc && st ≠ .ok then return (rej, st)
  return (rej, ← anyStatus)

/-- `FiberBindAdapter::SendMsg` (transport/server/fiber/fiber_bind_adapter.cc:208-228) and `BindAdapter::SendMsg`
(transport/server/default/bind_adapter.cc:340-368); for the latter the task handed to the reactor is run. -/
def sendMsg (fiber : Bool) : Prog Unit := do
  if ← run PRE_SCHED_SEND_MSG then
    run' POST_SCHED_SEND_MSG
    emit .lost
    return
  if fiber then
    run' POST_SCHED_SEND_MSG
    emit .reply
    return
  if ← ask "the reactor takes the task" then
    run' POST_SCHED_SEND_MSG
    emit .reply
  else
    run' POST_SCHED_SEND_MSG
    emit .lost

/-- What is left to do for a request when the function that handles it returns. -/
inductive Left where
  /-- nothing -/
  | nothing
  /-- `*send` is set -/
  | send
  /-- the user has called `SetResponse(false)` -/
  | later

/-- `ConstructUnaryResponse` (server/service_impl.cc:164-179). -/
def construct (oneway : Bool) : Prog Left := do
  if oneway then return .nothing
  if ← ask "the response cannot be encoded" then
    emit .lost
    return .nothing
  return .send

/-- `UnaryRpcMethodHandler::PreExecute` (server/rpc/unary_rpc_method_handler.h:74-111). -/
def preExecute (disc : Bool) (st : Status) : Prog (Bool × Status) := do
  if ← ask "the body cannot be decompressed or deserialized" then return (false, .decode)
  let (rej, st) ← runSt disc st PRE_RPC_INVOKE
  return (!rej, st)

/-- `UnaryRpcMethodHandler::PostExecute` (lines 113-142). -/
def postExecute : Prog Unit := run' POST_RPC_INVOKE

/-- `RpcMethodHandler::Execute` (server/rpc/rpc_method_handler.h:33-53); the result: `IsResponse()`. `later`: whether users
may call `SetResponse(false)`. -/
def execute (disc later : Bool) (st : Status) : Prog Bool := do
  let (ok, st) ← preExecute disc st
  if ok then
    emit .work
    if later then
      if ← ask "the user calls SetResponse(false)" then return false
  else if st = .decode then return true
  postExecute
  return true

/-- `AsyncRpcMethodHandler::Execute` (server/async_rpc/async_rpc_method_handler.h:35-47), up to the call of the user's
function. -/
def executeAsync (disc : Bool) (st : Status) : Prog Bool := do
  let (ok, st) ← preExecute disc st
  if ok then
    emit .work
    return false
  if st ≠ .decode then postExecute
  return true

/-- Which kind of method: synchronous, synchronous with the possibility to answer later, returning a future. -/
inductive Kind where
  | sync | deferred | future
  deriving DecidableEq

/-- `RpcServiceImpl::Dispatch` (server/rpc/rpc_service_impl.cc:27-40) and `AsyncRpcServiceImpl::Dispatch`. -/
def dispatch (kind : Kind) (disc : Bool) (st : Status) : Prog Bool := do
  if ← ask "there is no such method" then return true
  match kind with
  | .sync => execute disc false st
  | .deferred => execute disc true st
  | .future => executeAsync disc st

/-- `ServiceImpl::HandleTransportMessage` (server/service_impl.cc:27-93). A user who answers later does so after this
function has returned. -/
def handleTransportMessage (kind : Kind) (disc oneway : Bool) (st : Status) : Prog Left := do
  if st ≠ .ok || (← ask "WaitForFullRequest fails") then
    if st = .decode then
      if ← ask "the codec does not answer undecodable requests" then
        emit .lost
        return .nothing
    run' POST_RECV_MSG
    run' PRE_SEND_MSG
    return ← construct oneway
  let (rej, st) ← runSt disc st POST_RECV_MSG
  if rej then
    run' PRE_SEND_MSG
    return ← construct oneway
  if st ≠ .ok || (← ask "the request has waited too long") then
    run' PRE_SEND_MSG
    return ← construct oneway
  let resp ← dispatch kind disc st
  if oneway then
    run' PRE_SEND_MSG
    return if resp then .nothing else .later
  if resp then
    run' PRE_SEND_MSG
    return ← construct oneway
  return .later

/-- `ServerContext::SendUnaryResponse(status)` (server/server_context.cc:164-192). -/
def sendUnaryStatus (fiber oneway : Bool) : Prog Unit := do
  run' PRE_SEND_MSG
  if oneway then return
  if ← ask "the response cannot be encoded" then
    emit .lost
    return
  sendMsg fiber

/-- `ServerContext::SendUnaryResponse(status, data, type)` (server/server_context.cc:102-162): all ways out of it, errors
included, end in `SendUnaryResponse(status)`. -/
def sendUnaryData (fiber oneway : Bool) : Prog Unit := do
  run' POST_RPC_INVOKE
  sendUnaryStatus fiber oneway

/-- How the user answers who has called `SetResponse(false)`: with a message, or with a status only. A method that
returns a future answers with a message if the future is ready and with a status only if it has failed
(server/async_rpc/async_rpc_method_handler.h:48-60). -/
inductive Answer where
  | data | status
  deriving DecidableEq

def answerLater (fiber oneway : Bool) : Answer → Prog Unit
  | .data => sendUnaryData fiber oneway
  | .status => sendUnaryStatus fiber oneway

/-- `ServiceAdapter::HandleMessage` and `HandleFiberMessage` (server/service_adapter.cc:272-427) for one message: the task
handed to the thread model is run. `handle` is `HandleTransportMessage`, `rest` what happens later. -/
def adapter (disc fiber : Bool) (handle : Status → Prog Left) (rest : Prog Unit) : Prog Unit := do
  let st0 ← anyStatus
  let (rej, st) ← runSt disc st0 PRE_SCHED_RECV_MSG
  if st0 = .ok && !rej then
    if ← ask "the task cannot be queued" then
      run' POST_SCHED_RECV_MSG
      emit .lost
      return
  run' POST_SCHED_RECV_MSG
  match ← handle st with
  | .nothing => return
  | .send => sendMsg fiber
  | .later => rest

/-- One request to a method of an RPC service. -/
def rpcServer (kind : Kind) (answer : Answer) (disc fiber oneway : Bool) : Prog Unit :=
  adapter disc fiber (handleTransportMessage kind disc oneway) (answerLater fiber oneway answer)

/-- `ServerContext::SendResponse` (server/server_context.cc:202-213). -/
def sendResponse (fiber : Bool) : Prog Unit := do
  run' POST_RPC_INVOKE
  run' PRE_SEND_MSG
  sendMsg fiber

/-- `HttpService::Handle` (server/http_service.cc:68-146). -/
def httpHandle (disc fiber : Bool) (st : Status) : Prog Left := do
  let (r1, st) ← runSt disc st POST_RECV_MSG
  let (r2, st) ← runSt disc st PRE_RPC_INVOKE
  if r1 || r2 then
    run' POST_RPC_INVOKE
    run' PRE_SEND_MSG
    return .send
  if st ≠ .ok || (← ask "the request has waited too long") then
    run' POST_RPC_INVOKE
    run' PRE_SEND_MSG
    sendResponse fiber
    return .nothing
  if ← ask "there is a handler for the path" then emit .work
  run' POST_RPC_INVOKE
  run' PRE_SEND_MSG
  return .send

/-- `HttpService::HandleTransportMessage` (server/http_service.cc:23-61); `stream`: the handler is for streams, the
body is not read first. `HandleError` (lines 148-166) sends its response with `SendResponse`. Handlers that call
`SetResponse(false)` are left out. -/
def httpTransportMessage (disc fiber stream : Bool) (st : Status) : Prog Left := do
  if !stream then
    if ← ask "the body cannot be read" then
      sendResponse fiber
      return .nothing
  httpHandle disc fiber st

def httpServer (disc fiber stream : Bool) : Prog Unit :=
  adapter disc fiber (httpTransportMessage disc fiber stream) (pure ())

/-- `HttpAsyncStreamService::HandleError` (server/http/http_async_stream_service.cc:38-48). -/
def asyncStreamError (fiber : Bool) : Prog Unit := do
  run' PRE_SEND_MSG
  sendMsg fiber

/-- `HandleUnaryMethodImpl` (lines 80-104), for users who do not call `SetResponse(false)`. -/
def asyncStreamUnary (fiber : Bool) : Prog Unit := do
  if ← run PRE_RPC_INVOKE then
    run' POST_RPC_INVOKE
    return ← asyncStreamError fiber
  emit .work
  run' POST_RPC_INVOKE
  if ← ask "the handler has taken too long" then
    return ← asyncStreamError fiber
  run' PRE_SEND_MSG
  sendMsg fiber

/-- `HandleStreamMethod` (lines 140-172); the response of a stream that ends well is written by the user. -/
def asyncStreamStream (fiber : Bool) : Prog Unit := do
  if ← run PRE_RPC_INVOKE then
    run' POST_RPC_INVOKE
    return ← asyncStreamError fiber
  emit .work
  run' POST_RPC_INVOKE
  if ← ask "the future of the stream has failed" then
    return ← asyncStreamError fiber
  run' PRE_SEND_MSG
  emit .reply

/-- `ServiceImpl::HandleTransportStreamMessage` (server/service_impl.cc:95-100) with `HttpAsyncStreamService::DispatchStream`
(server/http/http_async_stream_service.cc:50-78) and `HandleUnaryMethod` (lines 106-138). -/
def httpAsyncStream (fiber : Bool) : Prog Unit := do
  run' POST_RECV_MSG
  if ← ask "the request has waited too long" then
    return ← asyncStreamError fiber
  if ← ask "there is no handler for the path" then
    return ← asyncStreamError fiber
  if ← ask "the handler is for streams" then
    return ← asyncStreamStream fiber
  if ← ask "the rest of the request cannot be read" then
    return ← asyncStreamError fiber
  asyncStreamUnary fiber

/-- `HandleTransportStreamMessage` with `RpcServiceImpl::DispatchStream` (server/rpc/rpc_service_impl.cc:42-72) and
`StreamRpcMethodHandler::Execute` (server/rpc/stream_rpc_method_handler.h:62-125): `Close` and `Reset` of the stream run
the filters of `SERVER_PRE_SEND_MSG` (stream/trpc/trpc_server_stream.cc:275-307); that they are reached is assumed. -/
def rpcStream : Prog Unit := do
  run' POST_RECV_MSG
  if ← ask "there is no such method" then return
  if ← ask "no fiber can be started" then return
  if ← ask "the stream cannot be started" then
    return ← run' PRE_SEND_MSG
  emit .work
  run' PRE_SEND_MSG

/-- The connection has written a response: `ConnectionHandler::MessageWriteDone`
(transport/server/common/server_connection_handler.h:73-78). Nothing in the code runs the filters of
`SERVER_PRE_IO_SEND_MSG`. -/
def messageWriteDone : Prog Unit := run' POST_IO_SEND_MSG

/-! ## Clients

Points 0 to 3 (filter/filter_point.h:28-32). -/

abbrev C_PRE_RPC_INVOKE := 0
abbrev C_POST_RPC_INVOKE := 1
abbrev C_PRE_SEND_MSG := 2
abbrev C_POST_RECV_MSG := 3

/-- `UnaryTransportInvoke` (client/service_proxy.cc:182-216) and `OnewayTransportInvoke` (lines 624 on). -/
def transportInvoke : Prog Unit := do
  if ← ask "the request cannot be encoded" then return
  emit .work

/-- `ServiceProxy::UnaryInvoke` (client/service_proxy.cc:52-72) and `ServiceProxy::OnewayInvoke` (lines 606-622). -/
def proxyUnary : Prog Unit := do
  if ← ask "there is no time left" then return
  if !(← run C_PRE_SEND_MSG) then transportInvoke
  run' C_POST_RECV_MSG

/-- `ServiceProxy::AsyncUnaryInvoke` (lines 74-90) and `AsyncUnaryTransportInvoke` (lines 244-299); the future of the
transport gets a value or an exception, either way the continuation is run. -/
def proxyAsync : Prog Unit := do
  if ← ask "there is no time left" then return
  if ← run C_PRE_SEND_MSG then
    return ← run' C_POST_RECV_MSG
  if ← ask "the request cannot be encoded" then
    return ← run' C_POST_RECV_MSG
  emit .work
  run' C_POST_RECV_MSG

/-- `RpcServiceProxy::UnaryInvoke` and `UnaryInvokeImp` (client/rpc_service_proxy.h:186-253), `RedisServiceProxy`'s functions of
these names (client/redis/redis_service_proxy.h:126-195), `NonRpcServiceProxy::UnaryInvoke` (client/non_rpc_service_proxy.h:62-88)
and `HttpServiceProxy::InnerUnaryInvoke` (client/http/http_service_proxy.cc:27-51): the last two do not fill a request. -/
def clientUnary : Prog Unit := do
  if ← ask "the type of the message is not supported" then return
  if !(← run C_PRE_RPC_INVOKE) then
    if !(← ask "the request cannot be filled") then proxyUnary
  run' C_POST_RPC_INVOKE

/-- `RpcServiceProxy::AsyncUnaryInvoke` and `AsyncUnaryInvokeImp` (client/rpc_service_proxy.h:256-355), and those of the
redis, http and other proxies. -/
def clientAsync : Prog Unit := do
  if ← ask "the type of the message is not supported" then return
  if ← run C_PRE_RPC_INVOKE then
    return ← run' C_POST_RPC_INVOKE
  if ← ask "the request cannot be filled" then
    return ← run' C_POST_RPC_INVOKE
  proxyAsync
  if ← ask "the future has failed" then
    return ← run' C_POST_RPC_INVOKE
  if ← ask "the response cannot be read" then
    return ← run' C_POST_RPC_INVOKE
  run' C_POST_RPC_INVOKE

/-- `RpcServiceProxy::OnewayInvoke` (client/rpc_service_proxy.h:358-407) and `RedisServiceProxy::OnewayInvoke`
(client/redis/redis_service_proxy.h:271-311): if the request cannot be filled, they return at once. -/
def clientOneway : Prog Unit := do
  if ← ask "the type of the message is not supported" then return
  if !(← run C_PRE_RPC_INVOKE) then
    if ← ask "the request cannot be filled" then return
    proxyUnary
  run' C_POST_RPC_INVOKE

/-- `NonRpcServiceProxy::OnewayInvoke` (client/non_rpc_service_proxy.h:130-152): there is no request to be filled. -/
def clientOnewayRaw : Prog Unit := do
  if !(← run C_PRE_RPC_INVOKE) then proxyUnary
  run' C_POST_RPC_INVOKE

/-- `HttpStreamProxy::GetAsyncStreamReaderWriter` (client/http/http_stream_proxy.cc:20-98). The user of a stream that could be
created calls `Finish` or `Reset` once (stream/http/async/client/stream.cc:21-43). -/
def clientStream : Prog Unit := do
  if ← run C_PRE_RPC_INVOKE then return
  if ← run C_PRE_SEND_MSG then
    return ← run' C_POST_RPC_INVOKE
  if ← ask "the stream cannot be created" then
    run' C_POST_RECV_MSG
    return ← run' C_POST_RPC_INVOKE
  emit .work
  run' C_POST_RECV_MSG
  run' C_POST_RPC_INVOKE

end Verif.Filter
