import Verif.Model.Wire
import Verif.Model.Store
/-!
# Model of server/ and client/

A request is marshalled by the client (client/*.go), carried by qrpc, unmarshalled and executed by the
server (server/*.go) on the Badger provider, and the response goes back the same way.  qrpc is
external: it delivers frames of a stream in order, or the connection breaks.  Error texts
(`err.Error()`) are a parameter.  Every unmarshalling error closes the connection, so what a failed
Unmarshal leaves in the request variable is never used again and is not modelled.
-/
namespace Mondis.Server
open Mondis.Wire (KeyRequest SetRequest ScanRequest Status GetResponse ExistsResponse ScanResponse PSO)

/-- A pending write of a badger transaction as badger keeps it: the map `pendingWrites` is keyed by a
copy of the key (`string(e.Key)`), while the entry holds the caller's slice.  `ekey` is what that slice
reads now.  `gen = 0`: the slice is not shared; `gen = n > 0`: it is the n-th backing array of the
reused variable `deleteReq.Key` (server/common.go:21). -/
structure PEntry where
  mapKey : Bytes
  ekey : Bytes
  gen : Nat
  val : Option Val
  deriving DecidableEq

/-- What the code does not control. -/
structure Ctx where
  env : Env
  /-- err.Error() -/
  txt : Err → Bytes
  txt_short : ∀ e, (txt e).length < 2 ^ 32
  /-- the order in which badger goes over its map of pending writes (Go map iteration, and an unstable
  sort) -/
  order : List PEntry → List PEntry
  order_perm : ∀ l, (order l).Perm l
  /-- capacity Go's append gives a new backing array for n bytes -/
  grow : Nat → Nat
  grow_le : ∀ n, n ≤ grow n

def codeOK : Int32 := 0               -- server/code.go:5
def codeInvalidRequest : Int32 := 1   -- server/code.go:7
def codeInternalError : Int32 := 2    -- server/code.go:9
def codeTxnTooBig : Int32 := 3        -- server/code.go:11
def codeKeyNotFound : Int32 := 4      -- server/code.go:13

/-! ## A server side transaction -/

/-- A badger transaction as the server uses it (compare `Txn`): the snapshot, and the pending writes,
oldest first. -/
structure STxn where
  update : Bool
  snap : DB
  pending : List PEntry := []
  attempts : Nat := 0

/-- The entries in badger's map: a later write to the same map key replaces an earlier one. -/
def effective : List PEntry → List PEntry
  | [] => []
  | e :: r => if r.any (fun e' => e'.mapKey == e.mapKey) then effective r else e :: effective r

namespace STxn

/-- The writes as they reach the database or a scan: under the key the entry's slice reads now. -/
def writes (cx : Ctx) (t : STxn) : List (Bytes × Option Val) :=
  (cx.order (effective t.pending)).map (fun e => (e.ekey, e.val))

/-- *contract* badger Txn.modify, as `Txn.modify`. -/
def modify (cx : Ctx) (t : STxn) (k : Bytes) (gen : Nat) (w : Option Val) : Res Unit × STxn :=
  if !t.update then (.err .readOnlyTxn, t)
  else match keyErr k with
    | some e => (.err e, t)
    | none =>
      if cx.env.tooBig t.attempts then (.err .txnTooBig, { t with attempts := t.attempts + 1 })
      else (.ok (), { t with
        pending := t.pending ++ [⟨k, k, gen, w⟩], attempts := t.attempts + 1 })

/-- what Get finds in the snapshot -/
def readSnap (cx : Ctx) (t : STxn) (k : Bytes) : Res Val :=
  match t.snap.get k with
  | some v => if v.live cx.env.now then .ok v else .err .keyNotFound
  | none => .err .keyNotFound

/-- provider/badger_txn.go:45-63 Get.  *contract* badger Txn.Get: a pending write answers if its map
key is `k` *and* its entry's key still reads `k` (`bytes.Equal(key, e.Key)`). -/
def get (cx : Ctx) (t : STxn) (k : Bytes) : Res Val :=
  if k = [] then .err .emptyKey
  else match t.pending.reverse.find? (fun e => e.mapKey == k) with
    | some e =>
      if e.ekey = k then
        match e.val with
        | some v => if v.live cx.env.now then .ok v else .err .keyNotFound
        | none => .err .keyNotFound
      else t.readSnap cx k
    | none => t.readSnap cx k

/-- provider/badger_txn.go:29-42 Exists -/
def exists' (cx : Ctx) (t : STxn) (k : Bytes) : Res Bool :=
  match t.get cx k with
  | .ok _ => .ok true
  | .err .keyNotFound => .ok false
  | .err e => .err e
  | .panic => .panic

/-- provider/badger_txn.go:94-98 Scan -/
def scan (cx : Ctx) (t : STxn) (o : ScanOption) : List (Bytes × Val) :=
  Txn.iterate cx.env.prune (Txn.liveEnts cx.env.now (applyWrites t.snap (t.writes cx))) o

/-- provider/badger_txn.go:83-86 Commit -/
def commit (cx : Ctx) (t : STxn) (fail : Option Err) (db : DB) : Res Unit × DB :=
  if t.pending = [] then (.ok (), db)
  else match fail with
    | some e => (.err e, db)
    | none => (.ok (), applyWrites db (t.writes cx))

/-- The backing array `gen` is overwritten from its start with `new`
(pb/mondis.pb.go:2463 `append(m.Key[:0], ...)`): entries that share it read differently. -/
def overwrite (t : STxn) (gen : Nat) (new : Bytes) : STxn :=
  { t with pending := t.pending.map (fun e =>
      if e.gen = gen then { e with ekey := (new ++ e.ekey.drop new.length).take e.ekey.length }
      else e) }

end STxn

/-! ## Request handlers (server/common.go)

The provider call's outcome is the first argument. -/

/-- server/common.go:180-198 handleTxnSet, 262-277 handleTxnDelete -/
def respTxnWrite (cx : Ctx) (resp : Status) : Res Unit → Status
  | .ok _ => { resp with code := codeOK, msg := [] }
  | .err .txnTooBig => { resp with code := codeTxnTooBig, msg := cx.txt .txnTooBig }
  | .err e => { resp with code := codeInternalError, msg := cx.txt e }
  | .panic => resp

/-- server/common.go:200-213 handleSet, 250-260 handleDelete, 321-331 handleTxnCommit -/
def respWrite (cx : Ctx) (resp : Status) : Res Unit → Status
  | .ok _ => { resp with code := codeOK, msg := [] }
  | .err e => { resp with code := codeInternalError, msg := cx.txt e }
  | .panic => resp

/-- server/common.go:215-228 handleExists -/
def respExists (cx : Ctx) (resp : ExistsResponse) : Res Bool → ExistsResponse
  | .ok b => { resp with code := codeOK, msg := [], found := b }
  | .err e => { resp with code := codeInternalError, msg := cx.txt e }
  | .panic => resp

/-- `&pb.VMetaResp{ExpiresAt: meta.ExpiresAt, Tag: uint32(meta.Tag)}` -/
def pbMeta (v : Val) : Wire.VMetaResp := ⟨v.expiresAt, v.tag.toUInt32⟩

/-- server/common.go:230-248 handleGet -/
def respGet (cx : Ctx) (resp : GetResponse) : Res Val → GetResponse
  | .ok v => { resp with code := codeOK, msg := [], value := v.value, vmeta := some (pbMeta v) }
  | .err .keyNotFound => { resp with code := codeKeyNotFound, msg := cx.txt .keyNotFound }
  | .err e => { resp with code := codeInternalError, msg := cx.txt e }
  | .panic => resp

/-- server/common.go:298-308, the scan callback: append, then stop when the response holds `limit`
entries. -/
def collect (limit : Int) (acc : List Wire.Entry) : List (Bytes × Val) → List Wire.Entry
  | [] => acc
  | e :: r =>
    let acc := acc ++ [⟨e.1, e.2.value, some (pbMeta e.2)⟩]
    if (acc.length : Int) ≥ limit then acc else collect limit acc r

/-- server/common.go:285-319 handleScan; `scan` is kvop.Scan (whose only errors are storage failures,
not modelled).  A request without ProviderScanOption dereferences nil. -/
def respScan (scan : ScanOption → List (Bytes × Val)) (req : ScanRequest) (resp : ScanResponse) :
    Res ScanResponse :=
  match req.pso with
  | none => .panic
  | some pso =>
    let limit := req.limit.toInt
    if limit = 0 then .ok { resp with code := codeOK, msg := [] }
    else
      let limit := if limit > 1000 then 1000 else limit
      .ok ⟨codeOK, [], collect limit resp.entries (scan ⟨pso.reverse, pso.pfx, pso.offset⟩)⟩

/-- server/common.go:333-339 metaFromSetRequest: `byte(req.Meta.Tag)` -/
def metaOf (req : SetRequest) : Option VMetaReq :=
  req.vmeta.map (fun m => ⟨m.ttl, m.tag.toUInt8⟩)

/-! ## Single requests (server/cmd_*.go with frame.Flags.IsDone()) -/

/-- server/cmd_set.go:18-44; the answer's payload and the new contents -/
def cmdSet (cx : Ctx) (fail : Option Err) (db : DB) (payload : Bytes) : Res (Bytes × DB) :=
  match SetRequest.unmarshal payload {} with
  | .panic => .panic
  | .err e => .ok ((Status.mk codeInvalidRequest (cx.txt e) []).marshal, db)
  | .ok req =>
    let (r, db') := Badger.set cx.env fail db req.key req.value (metaOf req)
    .ok ((respWrite cx {} r).marshal, db')

/-- server/cmd_delete.go:18-44 -/
def cmdDelete (cx : Ctx) (fail : Option Err) (db : DB) (payload : Bytes) : Res (Bytes × DB) :=
  match KeyRequest.unmarshal payload {} with
  | .panic => .panic
  | .err e => .ok ((Status.mk codeInvalidRequest (cx.txt e) []).marshal, db)
  | .ok req =>
    let (r, db') := Badger.delete cx.env fail db req.key
    .ok ((respWrite cx {} r).marshal, db')

/-- server/cmd_get.go:18-44 -/
def cmdGet (cx : Ctx) (db : DB) (payload : Bytes) : Res Bytes :=
  match KeyRequest.unmarshal payload {} with
  | .panic => .panic
  | .err e => .ok (GetResponse.mk codeInvalidRequest (cx.txt e) [] none).marshal
  | .ok req => .ok (respGet cx {} (Badger.get cx.env db req.key)).marshal

/-- server/cmd_exists.go:18-44 -/
def cmdExists (cx : Ctx) (db : DB) (payload : Bytes) : Res Bytes :=
  match KeyRequest.unmarshal payload {} with
  | .panic => .panic
  | .err e => .ok (ExistsResponse.mk codeInvalidRequest (cx.txt e) false).marshal
  | .ok req => .ok (respExists cx {} (Badger.exists' cx.env db req.key)).marshal

/-- server/cmd_scan.go:18-44 -/
def cmdScan (cx : Ctx) (db : DB) (payload : Bytes) : Res Bytes :=
  match ScanRequest.unmarshal payload {} with
  | .panic => .panic
  | .err e => .ok (ScanResponse.mk codeInvalidRequest (cx.txt e) []).marshal
  | .ok req => do
    let resp ← respScan (Badger.scan cx.env db) req {}
    .ok resp.marshal

/-! ## Streams: transactions -/

/-- The variables of handleTxnContinuedFrame (server/common.go:18-33).  `delGen`, `delCap`: which backing
array deleteReq.Key has, and its capacity. -/
structure Stream where
  txn : STxn
  getReq : KeyRequest := {}
  getResp : GetResponse := {}
  deleteReq : KeyRequest := {}
  delGen : Nat := 0
  delCap : Nat := 0
  deleteResp : Status := {}
  setReq : SetRequest := {}
  setResp : Status := {}
  existsReq : KeyRequest := {}
  existsResp : ExistsResponse := {}
  scanReq : ScanRequest := {}
  scanResp : ScanResponse := {}

/-- The commands of a stream other than commit and discard. -/
inductive Cmd where
  | set | exists | get | delete | scan
  deriving DecidableEq, Repr

/-- What a frame does: the answer's payload and the stream afterwards; `none` if the server closed the
connection (the deferred Discard drops the transaction). -/
abbrev Reply := Res (Bytes × Option Stream)

/-- server/common.go:43-66.  The payload is unmarshalled into the *response*; the request variable
stays empty. -/
def contSet (cx : Ctx) (s : Stream) (payload : Bytes) : Reply :=
  match Status.unmarshal payload s.setResp with
  | .panic => .panic
  | .err e => .ok ({ s.setResp with code := codeInvalidRequest, msg := cx.txt e : Status }.marshal, none)
  | .ok setResp =>
    let (r, txn) := s.txn.modify cx s.setReq.key 0 (some (mkVal cx.env.now s.setReq.value (metaOf s.setReq)))
    let resp := respTxnWrite cx setResp r
    .ok (resp.marshal, some { s with txn := txn, setResp := resp })

/-- server/common.go:67-90 -/
def contExists (cx : Ctx) (s : Stream) (payload : Bytes) : Reply :=
  match KeyRequest.unmarshal payload s.existsReq with
  | .panic => .panic
  | .err e => .ok ({ s.existsResp with
      code := codeInvalidRequest, msg := cx.txt e : ExistsResponse }.marshal, none)
  | .ok req =>
    let resp := respExists cx s.existsResp (s.txn.exists' cx req.key)
    .ok (resp.marshal, some { s with existsReq := req, existsResp := resp })

/-- server/common.go:91-114 -/
def contGet (cx : Ctx) (s : Stream) (payload : Bytes) : Reply :=
  match KeyRequest.unmarshal payload s.getReq with
  | .panic => .panic
  | .err e => .ok ({ s.getResp with
      code := codeInvalidRequest, msg := cx.txt e : GetResponse }.marshal, none)
  | .ok req =>
    let resp := respGet cx s.getResp (s.txn.get cx req.key)
    .ok (resp.marshal, some { s with getReq := req, getResp := resp })

/-- How unmarshalling into deleteReq treats its backing array: in place if the new key fits, otherwise a
new array (pb/mondis.pb.go:2463-2466).  A payload without the key field leaves it alone.  (Payloads
that repeat the field, which Marshal never writes, are treated as if only the last one counted.) -/
def readDeleteKey (cx : Ctx) (s : Stream) (payload : Bytes) (req : KeyRequest) : Stream :=
  if payload = [] then s
  else if 0 < s.delGen ∧ req.key.length ≤ s.delCap then
    { s with deleteReq := req, txn := s.txn.overwrite s.delGen req.key }
  else { s with deleteReq := req, delGen := s.delGen + 1, delCap := cx.grow req.key.length }

/-- server/common.go:115-138 -/
def contDelete (cx : Ctx) (s : Stream) (payload : Bytes) : Reply :=
  match KeyRequest.unmarshal payload s.deleteReq with
  | .panic => .panic
  | .err e => .ok ({ s.deleteResp with code := codeInvalidRequest, msg := cx.txt e : Status }.marshal, none)
  | .ok req =>
    let s := readDeleteKey cx s payload req
    let (r, txn) := s.txn.modify cx s.deleteReq.key s.delGen none
    let resp := respTxnWrite cx s.deleteResp r
    .ok (resp.marshal, some { s with txn := txn, deleteResp := resp })

/-- server/common.go:139-162 -/
def contScan (cx : Ctx) (s : Stream) (payload : Bytes) : Reply :=
  match ScanRequest.unmarshal payload s.scanReq with
  | .panic => .panic
  | .err e => .ok ({ s.scanResp with
      code := codeInvalidRequest, msg := cx.txt e : ScanResponse }.marshal, none)
  | .ok req => do
    let resp ← respScan (s.txn.scan cx) req s.scanResp
    .ok (resp.marshal, some { s with scanReq := req, scanResp := resp })

/-- server/common.go:42-177, the switch -/
def continued (cx : Ctx) (s : Stream) : Cmd → Bytes → Reply
  | .set => contSet cx s
  | .exists => contExists cx s
  | .get => contGet cx s
  | .delete => contDelete cx s
  | .scan => contScan cx s

/-- The frame that opens a stream: server/cmd_set.go:45-60, cmd_delete.go, cmd_get.go, cmd_exists.go,
cmd_scan.go with `!frame.Flags.IsDone()`.  `upd` is `frame.Cmd.Opaque() == 1`; `snap` the committed
contents at that moment. -/
def opening (cx : Ctx) (upd : Bool) (snap : DB) (cmd : Cmd) (payload : Bytes) : Reply :=
  match cmd with
  | .set => match SetRequest.unmarshal payload {} with
    | .panic => .panic
    | .err e => .ok ((Status.mk codeInvalidRequest (cx.txt e) []).marshal, none)
    | .ok req =>
      let (r, txn) := STxn.modify cx ⟨true, snap, [], 0⟩ req.key 0
        (some (mkVal cx.env.now req.value (metaOf req)))
      .ok ((respTxnWrite cx {} r).marshal, some { txn := txn })
  | .delete => match KeyRequest.unmarshal payload {} with
    | .panic => .panic
    | .err e => .ok ((Status.mk codeInvalidRequest (cx.txt e) []).marshal, none)
    | .ok req =>
      let (r, txn) := STxn.modify cx ⟨true, snap, [], 0⟩ req.key 0 none
      .ok ((respTxnWrite cx {} r).marshal, some { txn := txn })
  | .get => match KeyRequest.unmarshal payload {} with
    | .panic => .panic
    | .err e => .ok ((GetResponse.mk codeInvalidRequest (cx.txt e) [] none).marshal, none)
    | .ok req =>
      let txn : STxn := ⟨upd, snap, [], 0⟩
      .ok ((respGet cx {} (txn.get cx req.key)).marshal, some { txn := txn })
  | .exists => match KeyRequest.unmarshal payload {} with
    | .panic => .panic
    | .err e => .ok ((ExistsResponse.mk codeInvalidRequest (cx.txt e) false).marshal, none)
    | .ok req =>
      let txn : STxn := ⟨upd, snap, [], 0⟩
      .ok ((respExists cx {} (txn.exists' cx req.key)).marshal, some { txn := txn })
  | .scan => match ScanRequest.unmarshal payload {} with
    | .panic => .panic
    | .err e => .ok ((ScanResponse.mk codeInvalidRequest (cx.txt e) []).marshal, none)
    | .ok req => do
      let txn : STxn := ⟨upd, snap, [], 0⟩
      let resp ← respScan (txn.scan cx) req {}
      .ok (resp.marshal, some { txn := txn })

/-- server/common.go:163-170, 321-331: the commit frame -/
def contCommit (cx : Ctx) (s : Stream) (fail : Option Err) (db : DB) : Bytes × DB :=
  let (r, db') := s.txn.commit cx fail db
  ((respWrite cx {} r).marshal, db')

end Mondis.Server

namespace Mondis.Client
open Mondis.Wire (KeyRequest SetRequest ScanRequest Status GetResponse ExistsResponse ScanResponse PSO)
open Mondis.Server (Ctx Stream Cmd)

/-- client/client.go:29-35 setReq2PB and Marshal -/
def setBytes (k v : Bytes) (vm : Option VMetaReq) : Bytes :=
  (SetRequest.mk k v (vm.map (fun m => ⟨m.ttl, m.tag.toUInt32⟩))).marshal

/-- client/client.go:275-281 scanOption2Bytes; `limit` is already between 1 and 1000 -/
def scanBytes (o : ScanOption) (limit : Int) : Bytes :=
  (ScanRequest.mk (some ⟨o.reverse, o.pfx, o.offset⟩) (Int32.ofInt limit)).marshal

/-- client/client.go:47-66 parseSetRespFromFrame -/
def parseSet (d : Bytes) : Res Unit := do
  let resp ← Status.unmarshal d {}
  if resp.code ≠ 0 then
    if resp.code = Server.codeTxnTooBig then .err .txnTooBig else .err (.rpc resp.code resp.msg)
  else .ok ()

/-- client/client.go:189-201 parseDeleteRespFromFrame, client_txn.go:165-178 parseCommitResp -/
def parseStatus (d : Bytes) : Res Unit := do
  let resp ← Status.unmarshal d {}
  if resp.code ≠ 0 then .err (.rpc resp.code resp.msg) else .ok ()

/-- client/client.go:95-111 parseExistsRespFromFrame -/
def parseExists (d : Bytes) : Res Bool := do
  let resp ← ExistsResponse.unmarshal d {}
  if resp.code ≠ 0 then .err (.rpc resp.code resp.msg) else .ok resp.found

/-- client/client.go:139-161 parseGetRespFromFrame: a missing Meta is dereferenced. -/
def parseGet (d : Bytes) : Res Val := do
  let resp ← GetResponse.unmarshal d {}
  if resp.code ≠ 0 then
    if resp.code = Server.codeKeyNotFound then .err .keyNotFound else .err (.rpc resp.code resp.msg)
  else match resp.vmeta with
    | none => .panic
    | some m => .ok ⟨resp.value, m.tag.toUInt8, m.expiresAt⟩

/-- client/client.go:255-260, the loop over the entries -/
def parseEntries : List Wire.Entry → Res (List (Bytes × Val))
  | [] => .ok []
  | e :: r => match e.vmeta with
    | none => .panic
    | some m => do
      let rest ← parseEntries r
      .ok ((e.key, ⟨e.value, m.tag.toUInt8, m.expiresAt⟩) :: rest)

/-- client/client.go:242-263 parseScanRespFromFrame -/
def parseScan (d : Bytes) : Res (List (Bytes × Val)) := do
  let resp ← ScanResponse.unmarshal d {}
  if resp.code ≠ 0 then .err (.rpc resp.code resp.msg) else parseEntries resp.entries

/-! ## Single operations -/

/-- client/client.go:69-82 Set -/
def set (cx : Ctx) (fail : Option Err) (db : DB) (k v : Bytes) (vm : Option VMetaReq) :
    Res Unit × DB :=
  match Server.cmdSet cx fail db (setBytes k v vm) with
  | .ok (d, db') => (parseSet d, db')
  | _ => (.err .net, db)

/-- client/client.go:204-216 Delete -/
def delete (cx : Ctx) (fail : Option Err) (db : DB) (k : Bytes) : Res Unit × DB :=
  match Server.cmdDelete cx fail db (KeyRequest.mk k).marshal with
  | .ok (d, db') => (parseStatus d, db')
  | _ => (.err .net, db)

/-- client/client.go:164-176 Get -/
def get (cx : Ctx) (db : DB) (k : Bytes) : Res Val :=
  match Server.cmdGet cx db (KeyRequest.mk k).marshal with
  | .ok d => parseGet d
  | _ => .err .net

/-- client/client.go:114-126 Exists -/
def exists' (cx : Ctx) (db : DB) (k : Bytes) : Res Bool :=
  match Server.cmdExists cx db (KeyRequest.mk k).marshal with
  | .ok d => parseExists d
  | _ => .err .net

/-- client/client.go:284-302 Scan -/
def scan (cx : Ctx) (db : DB) (o : ScanOption) (limit : Int) : Res (List (Bytes × Val)) :=
  if limit ≤ 0 then .ok []
  else
    let limit := if limit > 1000 then 1000 else limit
    match Server.cmdScan cx db (scanBytes o limit) with
    | .ok d => parseScan d
    | _ => .err .net

/-! ## Transactions -/

/-- A body `func(t mondis.Txn) error` of Update or View. -/
inductive CProg (α : Type) where
  | done (r : Res α)
  | get (k : Bytes) (cont : Res Val → CProg α)
  | exists (k : Bytes) (cont : Res Bool → CProg α)
  | set (k v : Bytes) (vm : Option VMetaReq) (cont : Res Unit → CProg α)
  | del (k : Bytes) (cont : Res Unit → CProg α)
  | scan (o : ScanOption) (limit : Int) (cont : Res (List (Bytes × Val)) → CProg α)

/-- The client's end of a transaction (client_txn.go:13-19): no stream opened yet (`sw` nil), an open stream, or
a broken connection, with or without a first answer (`firstFrame`) received before. -/
inductive Link where
  | fresh
  | live (s : Stream)
  | dead (answered : Bool)

/-- How the connection treats a frame: it arrives and is answered; writing it fails (`EndWrite` or
`StreamRequest` returns an error); it is written but the connection breaks before the server has
processed it, or after that and before the answer is back. -/
inductive Wireless where
  | good | refused | lostRequest | lostAnswer
  deriving DecidableEq, Repr

/-- client/client_txn.go:65-95 request followed by 52-63 getRespFrame, against the server.

*Contract* of qrpc: when the connection breaks, `GetFrame` returns an error and the channel `FrameCh()`
is closed (server/common.go:35-36 is written for that too).  Up to the first answer a client's
transaction waits with `GetFrame` (58); from then on it receives from the channel (54), gets nil without
an error when the connection breaks, and the parse functions (client.go:49, 96, 140, 190, 244,
client_txn.go:167) dereference it: a panic.  A first request that could not be written leaves the
transaction as it was (89-92), so that the next one opens the stream. -/
def request (cx : Ctx) (net : Wireless) (update : Bool) (snap : DB) (l : Link) (cmd : Cmd) (payload : Bytes) :
    Res Bytes × Link :=
  match l with
  | .dead answered => (if net = .refused ∨ answered = false then .err .net else .panic, .dead answered)
  | .fresh => match net with
    | .refused => (.err .net, .fresh)
    | .lostRequest => (.err .net, .dead false)
    | .lostAnswer => (.err .net, .dead false)
    | .good => match Server.opening cx update snap cmd payload with
      | .ok (d, some s) => (.ok d, .live s)
      | .ok (d, none) => (.ok d, .dead true)
      | _ => (.err .net, .dead false)
  | .live s => match net with
    | .refused => (.err .net, .dead true)
    | .lostRequest => (.panic, .dead true)
    | .lostAnswer => (.panic, .dead true)
    | .good => match Server.continued cx s cmd payload with
      | .ok (d, some s) => (.ok d, .live s)
      | .ok (d, none) => (.ok d, .dead true)
      | _ => (.panic, .dead true)

/-- A call inside a body: a panic in it ends the body as well. -/
def resume {α β : Type} (r : Res β) (n : Nat) (l : Link) (go : Res β → Res α × Nat × Link) : Res α × Nat × Link :=
  match r with
  | .ok b => go (.ok b)
  | .err e => go (.err e)
  | .panic => (.panic, n, l)

/-- Run a body.  `net n` is the fate of the n-th frame, `snap` the committed contents when the stream is
opened.  client/client_txn.go:28-50 Set, 98-115 Exists, 118-135 Get, 141-163 Delete, 219-244 Scan. -/
def run {α : Type} (cx : Ctx) (net : Nat → Wireless) (update : Bool) (snap : DB) :
    CProg α → Nat → Link → Res α × Nat × Link
  | .done r, n, l => (r, n, l)
  | .get k c, n, l =>
    let (r, l) := request cx (net n) update snap l .get (KeyRequest.mk k).marshal
    resume (r >>= parseGet) (n + 1) l (fun x => run cx net update snap (c x) (n + 1) l)
  | .exists k c, n, l =>
    let (r, l) := request cx (net n) update snap l .exists (KeyRequest.mk k).marshal
    resume (r >>= parseExists) (n + 1) l (fun x => run cx net update snap (c x) (n + 1) l)
  | .set k v vm c, n, l =>
    if !update then run cx net update snap (c (.err .mutateReadOnly)) n l
    else
      let (r, l) := request cx (net n) update snap l .set (setBytes k v vm)
      resume (r >>= parseSet) (n + 1) l (fun x => run cx net update snap (c x) (n + 1) l)
  | .del k c, n, l =>
    if !update then run cx net update snap (c (.err .mutateReadOnly)) n l
    else
      let (r, l) := request cx (net n) update snap l .delete (KeyRequest.mk k).marshal
      resume (r >>= parseStatus) (n + 1) l (fun x => run cx net update snap (c x) (n + 1) l)
  | .scan o limit c, n, l =>
    if limit ≤ 0 then run cx net update snap (c (.ok [])) n l
    else
      let (r, l) := request cx (net n) update snap l .scan
        (scanBytes o (if limit > 1000 then 1000 else limit))
      resume (r >>= parseScan) (n + 1) l (fun x => run cx net update snap (c x) (n + 1) l)

/-- client/client_txn.go:181-200 Commit -/
def commit (cx : Ctx) (net : Wireless) (fail : Option Err) (l : Link) (db : DB) : Res Unit × DB :=
  match l with
  | .fresh => (.ok (), db)
  | .dead answered => (if net = .refused ∨ answered = false then .err .net else .panic, db)
  | .live s => match net with
    | .refused => (.err .net, db)
    | .lostRequest => (.panic, db)
    | .lostAnswer => (.panic, (Server.contCommit cx s fail db).2)
    | .good => (parseStatus (Server.contCommit cx s fail db).1, (Server.contCommit cx s fail db).2)

/-- client/client.go:219-230 Update.  `snap` is the committed contents when the stream is opened, `db`
when it is committed. -/
def update {α : Type} (cx : Ctx) (net : Nat → Wireless) (fail : Option Err) (f : CProg α) (snap db : DB) :
    Res α × DB :=
  match run cx net true snap f 0 .fresh with
  | (.ok a, n, l) => match commit cx (net n) fail l db with
    | (.ok _, db') => (.ok a, db')
    | (.err e, db') => (.err e, db')
    | (.panic, db') => (.panic, db')
  | (r, _, _) => (r, db)

/-- client/client.go:233-240 View -/
def view {α : Type} (cx : Ctx) (net : Nat → Wireless) (f : CProg α) (snap db : DB) : Res α × DB :=
  ((run cx net false snap f 0 .fresh).1, db)

end Mondis.Client
