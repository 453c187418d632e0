import Verif.Model.Server
/-!
# Model of server/ and client/ on the LevelDB provider

server.New (server/server.go:30-45) takes any mondis.KVDB.  Here it is provider.NewLevelDB(): the handlers of
server/common.go are the same, the provider's calls are those of provider/leveldb.go.
-/
namespace Mondis.Server.Level
open Mondis.LevelDB (LDB)
open Mondis.Wire (KeyRequest SetRequest ScanRequest Status GetResponse ExistsResponse ScanResponse PSO)

/-- provider/leveldb.go:48-55 Set; `fail`: Put may report an error of the storage -/
def put (fail : Option Err) (db : LDB) (k v : Bytes) (vm : Option VMetaReq) : Res Unit × LDB :=
  match vm, fail with
  | none, some e => (.err e, db)
  | _, _ => LevelDB.set db k v vm

/-- provider/leveldb.go:80-83 Delete; `fail` as in `put` -/
def remove (fail : Option Err) (db : LDB) (k : Bytes) : Res Unit × LDB :=
  match fail with
  | some e => (.err e, db)
  | none => LevelDB.delete db k

/-- provider/leveldb.go:65-77 Get: the second result is never assigned, so it is the zero VMetaResp -/
def read (db : LDB) (k : Bytes) : Res Val := (LevelDB.get db k).map' (fun v => { value := v })

/-- server/cmd_set.go:18-44, server/common.go:200-213, 333-339 -/
def cmdSet (cx : Ctx) (fail : Option Err) (db : LDB) (payload : Bytes) : Res (Bytes × LDB) :=
  match SetRequest.unmarshal payload {} with
  | .panic => .panic
  | .err e => .ok ((Status.mk codeInvalidRequest (cx.txt e) []).marshal, db)
  | .ok req =>
    let (r, db') := put fail db req.key req.value (metaOf req)
    .ok ((respWrite cx {} r).marshal, db')

/-- server/cmd_delete.go:18-44, server/common.go:250-260 -/
def cmdDelete (cx : Ctx) (fail : Option Err) (db : LDB) (payload : Bytes) : Res (Bytes × LDB) :=
  match KeyRequest.unmarshal payload {} with
  | .panic => .panic
  | .err e => .ok ((Status.mk codeInvalidRequest (cx.txt e) []).marshal, db)
  | .ok req =>
    let (r, db') := remove fail db req.key
    .ok ((respWrite cx {} r).marshal, db')

/-- server/cmd_get.go:18-44, server/common.go:230-248 -/
def cmdGet (cx : Ctx) (db : LDB) (payload : Bytes) : Res Bytes :=
  match KeyRequest.unmarshal payload {} with
  | .panic => .panic
  | .err e => .ok (GetResponse.mk codeInvalidRequest (cx.txt e) [] none).marshal
  | .ok req => .ok (respGet cx {} (read db req.key)).marshal

/-- server/cmd_exists.go:18-44, server/common.go:215-228 -/
def cmdExists (cx : Ctx) (db : LDB) (payload : Bytes) : Res Bytes :=
  match KeyRequest.unmarshal payload {} with
  | .panic => .panic
  | .err e => .ok (ExistsResponse.mk codeInvalidRequest (cx.txt e) false).marshal
  | .ok req => .ok (respExists cx {} (LevelDB.exists' db req.key)).marshal

/-- server/common.go:285-319 handleScan; the callback gets provider/leveldb.go:85's emptyMeta.  LevelDB's Scan has
an error of its own: it does not scan in reverse. -/
def respScan (cx : Ctx) (db : LDB) (req : ScanRequest) (resp : ScanResponse) : Res ScanResponse :=
  match req.pso with
  | none => .panic
  | some pso =>
    let limit := req.limit.toInt
    if limit = 0 then .ok { resp with code := codeOK, msg := [] }
    else
      let limit := if limit > 1000 then 1000 else limit
      match LevelDB.scan db ⟨pso.reverse, pso.pfx, pso.offset⟩ with
      | .ok l => .ok ⟨codeOK, [], collect limit resp.entries (l.map (fun e => (e.1, { value := e.2 })))⟩
      | .err e => .ok { resp with code := codeInternalError, msg := cx.txt e }
      | .panic => .panic

/-- server/cmd_scan.go:18-44 -/
def cmdScan (cx : Ctx) (db : LDB) (payload : Bytes) : Res Bytes :=
  match ScanRequest.unmarshal payload {} with
  | .panic => .panic
  | .err e => .ok (ScanResponse.mk codeInvalidRequest (cx.txt e) []).marshal
  | .ok req => do
    let resp ← respScan cx db req {}
    .ok resp.marshal

/-- The frame that would open a stream: server/cmd_set.go:45-60, cmd_delete.go:45-59, cmd_get.go:45-60,
cmd_exists.go:45-60, cmd_scan.go:45-60.  provider/leveldb.go:43-45 NewTransaction panics. -/
def opening (cx : Ctx) (cmd : Cmd) (payload : Bytes) : Res Bytes :=
  match cmd with
  | .set => match SetRequest.unmarshal payload {} with
    | .err e => .ok (Status.mk codeInvalidRequest (cx.txt e) []).marshal
    | _ => .panic
  | .delete => match KeyRequest.unmarshal payload {} with
    | .err e => .ok (Status.mk codeInvalidRequest (cx.txt e) []).marshal
    | _ => .panic
  | .get => match KeyRequest.unmarshal payload {} with
    | .err e => .ok (GetResponse.mk codeInvalidRequest (cx.txt e) [] none).marshal
    | _ => .panic
  | .exists => match KeyRequest.unmarshal payload {} with
    | .err e => .ok (ExistsResponse.mk codeInvalidRequest (cx.txt e) false).marshal
    | _ => .panic
  | .scan => match ScanRequest.unmarshal payload {} with
    | .err e => .ok (ScanResponse.mk codeInvalidRequest (cx.txt e) []).marshal
    | _ => .panic

end Mondis.Server.Level

namespace Mondis.Client.Level
open Mondis.LevelDB (LDB)
open Mondis.Wire (KeyRequest)
open Mondis.Server (Ctx Cmd)

/-- client/client.go:69-82 Set -/
def set (cx : Ctx) (fail : Option Err) (db : LDB) (k v : Bytes) (vm : Option VMetaReq) : Res Unit × LDB :=
  match Server.Level.cmdSet cx fail db (setBytes k v vm) with
  | .ok (d, db') => (parseSet d, db')
  | _ => (.err .net, db)

/-- client/client.go:204-216 Delete -/
def delete (cx : Ctx) (fail : Option Err) (db : LDB) (k : Bytes) : Res Unit × LDB :=
  match Server.Level.cmdDelete cx fail db (KeyRequest.mk k).marshal with
  | .ok (d, db') => (parseStatus d, db')
  | _ => (.err .net, db)

/-- client/client.go:164-176 Get -/
def get (cx : Ctx) (db : LDB) (k : Bytes) : Res Val :=
  match Server.Level.cmdGet cx db (KeyRequest.mk k).marshal with
  | .ok d => parseGet d
  | _ => .err .net

/-- client/client.go:114-126 Exists -/
def exists' (cx : Ctx) (db : LDB) (k : Bytes) : Res Bool :=
  match Server.Level.cmdExists cx db (KeyRequest.mk k).marshal with
  | .ok d => parseExists d
  | _ => .err .net

/-- client/client.go:284-302 Scan -/
def scan (cx : Ctx) (db : LDB) (o : ScanOption) (limit : Int) : Res (List (Bytes × Val)) :=
  if limit ≤ 0 then .ok []
  else
    let limit := if limit > 1000 then 1000 else limit
    match Server.Level.cmdScan cx db (scanBytes o limit) with
    | .ok d => parseScan d
    | _ => .err .net

/-- The client's end of a transaction (client_txn.go:13-19), as `Client.Link`; there is no open stream. -/
inductive Link where
  | fresh
  | dead (answered : Bool)

/-- client/client_txn.go:65-95 request followed by 52-63 getRespFrame, as `Client.request`.  What qrpc does with a panic
in a handler is not in this code (it may end the server's process): the connection breaks in any case
(*contract* qrpc). -/
def request (cx : Ctx) (net : Wireless) (l : Link) (cmd : Cmd) (payload : Bytes) : Res Bytes × Link :=
  match l with
  | .dead answered => (if net = .refused ∨ answered = false then .err .net else .panic, .dead answered)
  | .fresh => match net with
    | .refused => (.err .net, .fresh)
    | .lostRequest => (.err .net, .dead false)
    | .lostAnswer => (.err .net, .dead false)
    | .good => match Server.Level.opening cx cmd payload with
      | .ok d => (.ok d, .dead true)
      | _ => (.err .net, .dead false)

/-- A call inside a body: a panic in it ends the body as well. -/
def resume {α β : Type} (r : Res β) (n : Nat) (l : Link) (go : Res β → Res α × Nat × Link) : Res α × Nat × Link :=
  match r with
  | .ok b => go (.ok b)
  | .err e => go (.err e)
  | .panic => (.panic, n, l)

/-- Run a body, as `Client.run`: client/client_txn.go:28-50 Set, 98-115 Exists, 118-135 Get, 141-163 Delete, 219-244 Scan. -/
def run {α : Type} (cx : Ctx) (net : Nat → Wireless) (update : Bool) : CProg α → Nat → Link → Res α × Nat × Link
  | .done r, n, l => (r, n, l)
  | .get k c, n, l =>
    let (r, l) := request cx (net n) l .get (KeyRequest.mk k).marshal
    resume (r >>= parseGet) (n + 1) l (fun x => run cx net update (c x) (n + 1) l)
  | .exists k c, n, l =>
    let (r, l) := request cx (net n) l .exists (KeyRequest.mk k).marshal
    resume (r >>= parseExists) (n + 1) l (fun x => run cx net update (c x) (n + 1) l)
  | .set k v vm c, n, l =>
    if !update then run cx net update (c (.err .mutateReadOnly)) n l
    else
      let (r, l) := request cx (net n) l .set (setBytes k v vm)
      resume (r >>= parseSet) (n + 1) l (fun x => run cx net update (c x) (n + 1) l)
  | .del k c, n, l =>
    if !update then run cx net update (c (.err .mutateReadOnly)) n l
    else
      let (r, l) := request cx (net n) l .delete (KeyRequest.mk k).marshal
      resume (r >>= parseStatus) (n + 1) l (fun x => run cx net update (c x) (n + 1) l)
  | .scan o limit c, n, l =>
    if limit ≤ 0 then run cx net update (c (.ok [])) n l
    else
      let (r, l) := request cx (net n) l .scan (scanBytes o (if limit > 1000 then 1000 else limit))
      resume (r >>= parseScan) (n + 1) l (fun x => run cx net update (c x) (n + 1) l)

/-- client/client_txn.go:181-200 Commit -/
def commit (net : Wireless) (l : Link) : Res Unit :=
  match l with
  | .fresh => .ok ()
  | .dead answered => if net = .refused ∨ answered = false then .err .net else .panic

/-- client/client.go:219-230 Update: no frame of it gets as far as the database -/
def update {α : Type} (cx : Ctx) (net : Nat → Wireless) (f : CProg α) (db : LDB) : Res α × LDB :=
  match run cx net true f 0 .fresh with
  | (.ok a, n, l) => match commit (net n) l with
    | .ok _ => (.ok a, db)
    | .err e => (.err e, db)
    | .panic => (.panic, db)
  | (r, _, _) => (r, db)

/-- client/client.go:233-240 View -/
def view {α : Type} (cx : Ctx) (net : Nat → Wireless) (f : CProg α) (db : LDB) : Res α × LDB :=
  ((run cx net false f 0 .fresh).1, db)

end Mondis.Client.Level
