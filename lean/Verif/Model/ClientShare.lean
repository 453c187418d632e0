import Verif.Model.Server
/-!
# Model of what the storage records about a client's transaction

Transactions of different clients run on the server at the same time.  Badger decides at the commit whether
one may go through by the keys the transaction read and the keys the others wrote, as it recorded them.
-/
namespace Mondis.Server
open Mondis.Wire (KeyRequest ScanRequest)

/-- *contract* badger Txn.Get in an update transaction: a key is recorded as read unless a pending write
answers (see `STxn.get`; an empty key is refused before). -/
def STxn.looks (t : STxn) (k : Bytes) : List Bytes :=
  if k = [] then []
  else match t.pending.reverse.find? (fun e => e.mapKey == k) with
    | some e => if e.ekey = k then [] else [k]
    | none => [k]

/-- The keys a frame makes the storage record as read: server/common.go:67-90 (Exists), 91-114 (Get),
139-162 (Scan; *contract* badger Iterator.Item: every entry handed out.  Entries that the scan would have
handed out after it was stopped are counted too). -/
def Stream.looks (cx : Ctx) (s : Stream) (cmd : Cmd) (payload : Bytes) : List Bytes :=
  match cmd with
  | .get => match KeyRequest.unmarshal payload s.getReq with
    | .ok req => s.txn.looks req.key
    | _ => []
  | .exists => match KeyRequest.unmarshal payload s.existsReq with
    | .ok req => s.txn.looks req.key
    | _ => []
  | .scan => match ScanRequest.unmarshal payload s.scanReq with
    | .ok req => match req.pso with
      | some pso => (s.txn.scan cx ⟨pso.reverse, pso.pfx, pso.offset⟩).map Prod.fst
      | none => []
    | _ => []
  | _ => []

/-- *contract* badger Txn.modify: the key of every write is recorded as it reads when the write is made
(`farm.Fingerprint64(e.Key)`). -/
def STxn.noted (t : STxn) : List Bytes := t.pending.map PEntry.mapKey

end Mondis.Server

namespace Mondis.Client
open Mondis.Wire (KeyRequest)
open Mondis.Server (Ctx Cmd Stream)

/-- The keys recorded as read when a request of an Update is made (compare `request`). -/
def looks (cx : Ctx) (net : Wireless) (snap : DB) (l : Link) (cmd : Cmd) (payload : Bytes) : List Bytes :=
  match net, l with
  | .good, .fresh => Stream.looks cx { txn := ⟨true, snap, [], 0⟩ } cmd payload
  | .good, .live s => s.looks cx cmd payload
  | _, _ => []

/-- The rest of a body after a call (compare `resume`). -/
def onward {β : Type} (r : Res β) (go : Res β → List Bytes) : List Bytes :=
  match r with
  | .ok b => go (.ok b)
  | .err e => go (.err e)
  | .panic => []

/-- The keys recorded as read when an Update runs its body (compare `run`). -/
def looked {α : Type} (cx : Ctx) (net : Nat → Wireless) (snap : DB) : CProg α → Nat → Link → List Bytes
  | .done _, _, _ => []
  | .get k c, n, l =>
    let (r, l') := request cx (net n) true snap l .get (KeyRequest.mk k).marshal
    looks cx (net n) snap l .get (KeyRequest.mk k).marshal ++
      onward (r >>= parseGet) (fun x => looked cx net snap (c x) (n + 1) l')
  | .exists k c, n, l =>
    let (r, l') := request cx (net n) true snap l .exists (KeyRequest.mk k).marshal
    looks cx (net n) snap l .exists (KeyRequest.mk k).marshal ++
      onward (r >>= parseExists) (fun x => looked cx net snap (c x) (n + 1) l')
  | .set k v vm c, n, l =>
    let (r, l') := request cx (net n) true snap l .set (setBytes k v vm)
    onward (r >>= parseSet) (fun x => looked cx net snap (c x) (n + 1) l')
  | .del k c, n, l =>
    let (r, l') := request cx (net n) true snap l .delete (KeyRequest.mk k).marshal
    onward (r >>= parseStatus) (fun x => looked cx net snap (c x) (n + 1) l')
  | .scan o limit c, n, l =>
    if limit ≤ 0 then looked cx net snap (c (.ok [])) n l
    else
      let p := scanBytes o (if limit > 1000 then 1000 else limit)
      let (r, l') := request cx (net n) true snap l .scan p
      looks cx (net n) snap l .scan p ++
        onward (r >>= parseScan) (fun x => looked cx net snap (c x) (n + 1) l')

end Mondis.Client
