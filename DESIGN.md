# Formal model of zhiqiangxu/mondis in Lean 4

(The first version of this file was committed before the proofs; it has been updated as the model grew.)

## 1. Layout

* `lean/Verif/Model/*`  – the code, function by function; every definition cites `file:lines` in /repo.
* `lean/Verif/Spec/*`   – small specifications a reader compares with the English text: lexicographic order, ordered maps,
  numeric order of floats, deques and maps for the structures, maps for the metadata, a request queue for package ddl,
  "copy of all documents" transactions for the document process.
* `lean/Verif/Lemmas/*` – helper lemmas, simulation relations, invariants.
* `lean/Verif/Props/*`  – the theorems `Cnn_…`, one file per area, and beside each theorem (or in `…Examples.lean`) an
  `example` that meets its hypotheses with concrete values.
* `properties.jsonl`, `MANIFEST.json` – generated by `tools/gen.py` from `tools/properties.py` and the theorem names.
* `AXIOMS.md` – the axioms of each theorem of the manifest, generated by `tools/axioms.py`.
* `seeded/LOG.jsonl` – the wrong programs the theorems were tested against.

Go values: `[]byte` and `string` are `List UInt8` (nil and empty are distinguished by `Option` where the code does);
`int64`/`uint64`/`byte` are `Int64`/`UInt64`/`UInt8` (wrapping, as in Go); `(x, error)` is `Res α` = ok / err / panic; a pointer
mutated in place becomes a returned value; goroutines become steps of a state machine, interleaved arbitrarily; failures of the
engine, of the network and of the runtime (crash) are events or parameters that the theorems quantify over. A Go map iterated in
random order is iterated in an order that is a parameter.

## 2. Trusted base

1. Lean 4.33.0's kernel. No compiled evaluation is trusted (no `native_decide`, no `bv_decide`); closed evaluations use `decide`
   or `decide +kernel`, both checked by the kernel.
2. Axioms: `propext`, `Classical.choice`, `Quot.sound` and no others. `AXIOMS.md` lists them per theorem. No Mathlib module is imported.
3. That the model says what the code says (section 3), and that the external libraries behave as in section 5.
4. That the theorem statements and `Spec/*` say what the English properties say.

## 3. What is modelled

| Go files | model | level |
|---|---|---|
| kv/memcomparable/*.go | Model/Memcomparable | every function; slices are lists (capacity and aliasing not modelled, except that the unsafe `fastReverseBytes` is modelled word by word) |
| kv/compact, kv/numeric | Model/Compact | every function |
| kv/key.go | Model/Key | every function but `String` |
| kv/util.go, structure/*.go | Model/Structure | every function, as a program over a transaction |
| provider/badger*.go | Model/Provider, Model/Store | transactions, single operations, scans, batches; Open and Close are not |
| provider/leveldb*.go | Model/Store (`LevelDB`) | every operation; `NewTransaction` only panics |
| util/util.go | Model/Util | every helper; concurrent transactions with conflict detection |
| pb/mondis.pb.go | Model/Wire | Marshal, Size, Unmarshal of every message, with wrap-around and panics; not the text/reflection methods |
| server/*.go, client/*.go | Model/Server, ClientShare, ServerLevel (the same on LevelDB) | every request handler and the continued-frame loop, including the request variables it reuses (and the capacity of the key buffer, on which C58 depends); client calls as programs; not New, Start, Stop |
| document/keys.go, dml/keys.go, keyspace | Model/DocKeys | every encoder and decoder |
| document/collection.go (documents), document/db.go | Model/Document | every operation, DB objects, opening and closing |
| document/db.go, collection.go, sequence.go as one system | Model/DocumentDB | many DB objects and transactions on one store, every call cut where the engine acts atomically |
| document/collection.go:370-601 (indexes) | Model/Index | CreateIndex, DropIndex, getIndexes, the in-memory copy |
| document/sequence.go, meta/sequence/*.go, meta/did_sequence.go | Model/Sequence | every method |
| document/model/model.go | Model/Schema, Model/Job | all types used, jobs and diffs |
| document/schema/*.go | Model/Schema | every function |
| document/meta/meta.go | Model/Meta, Model/Client | every function |
| document/ddl/*.go | Model/Ddl, Model/Hall (several DDL objects in one process), Model/Torn (death in the middle of a turn or of Init), Model/DdlLoop (when the worker works), Model/Race (calls that overlap with one another and with the worker), Model/Crowd (the same beside transactions on documents), Model/DdlWait (the callers until they return) | CreateSchema, AddIndex, GetHistoryJob, Init, the worker, checkJob's answer |
| document/txn/txn.go, dml/base.go, dml/collection.go, dml/sequence.go, dml/db.go | Model/Dml, Model/Domain, Model/DomainAsk, Model/Registry | every operation |
| document/domain/domain.go | Model/Domain | Init (as its parts), reload, the diff or full load, publication, when reloads happen (`Duty`) |

### Not modelled

* Constructors that only fill a struct, `String` methods, logging, metrics, error texts (an error is a constructor of `Err`; the
  text that crosses the wire is a parameter).
* Time: timers, leases, sleeps, `waitSchemaChanged`, contexts (except that of a call of package ddl, C88: when it is over is up to the history). When the worker runs
  and when reloads happen is up to the history; Model/DdlLoop (C89) adds the worker's sleep, its ticker and its notification
  channel, up to whether a notification finds it waiting. (config.Lease is 0, so `reloadInLoop` returns at once and `checkJob` polls.)
  TTLs are modelled with an explicit clock (C59).
* document/bson (constants only), document/config, dml.Index and its empty `Lookup`, `DropSchema` (its body is empty: it
  answers nil and does nothing), the input types without a function (CreateCollection, DropCollection, DropIndex).
* Slice aliasing, except in the server's frame loop. Data races on Go memory: every object guarded by a mutex is a step machine
  whose steps are the critical sections.
* Memory exhaustion, int overflow of lengths (slices are shorter than 2^63).

### Simplifications (each also said at the definition)

* What a callback after commit does (sequences of a new database) happens in the same step as the commit, except in Model/Torn, where
  the process may die after any of the transactions a turn of the worker, or Init, is made of. `stuck` is the state in
  which the worker retries CreateSequence forever; it is proved unreachable (C66_never_stuck).
* In Model/Ddl and Model/Domain a commit that the engine refuses is an arbitrary refusal (`fail`), not computed from the read set:
  an over-approximation. Model/Util computes conflicts from read and write sets (C60). The sequence model has explicit snapshots.
* In Model/Race a transaction of CreateSchema, AddIndex, GetHistoryJob or of the worker starts any number of events before it commits.  Model/Crowd does so in a document process.
  Its commit is refused if a key it looked up holds something else by then (badger refuses in these cases, and in more: a key written
  again with the same value, a key met by a scan; `fail` covers them). Draws and the creation of sequences stay at one moment.
* A second `Init` in a process that already has a worker keeps one worker.
* Using a document transaction after Commit or Discard is modelled only for Commit.
* GetIndices lists the indexes by name; the code ranges over a map.
* BSON and JSON are parameters with a round-trip law (section 5).

## 4. Histories

The theorems about processes quantify over `run` of a list of events from an empty (or any) database. For the document
process (`Model/Domain`): calls of package ddl, worker turns, crash, Init, reload (read), publication, begin, snapshot, insert, all
other operations, discard, schema check of Commit, engine commit with arbitrary refusal. The side conditions, all visible in the
statements: names are valid UTF-8 (`IsText`), no transaction exceeds the engine's size limit (`Roomy`), and the history is short
enough for 64-bit counters (`Brief`/`DomainBrief`: length·4·(length+1)·(K+300) < 2^62, where K bounds the collections per
request). For package document (`Model/DocumentDB`): NewDB in its two parts, Collection in its four, NewTransaction, InsertOne, all other
operations, Commit, Discard, CreateIndex in two parts, GetIndexes, DropIndex, Close in two parts, crash; every transaction inside a call has a
snapshot of its own (`Turn.v`), and conflicts are computed from what was read and written. There is no bound on the number of transactions, processes, collections or steps otherwise.

## 5. Contracts of external code (marked *contract* in the model)

* badger v1.6.0: snapshot reads, atomic commit (also under crashes), refusal on conflict, key and size checks (empty key, key starting
  with `!badger!`, ErrTxnTooBig), TTL in whole seconds, iterator order, `Commit` of a finished transaction panics, write batch splitting.
  `Detects` (C73; computed in Model/DocumentDB, C75): a writing transaction commits only if none of the keys it got or checked for was written by one committed since its
  snapshot. Keys met by an iterator are not counted, which is less than badger promises.
* goleveldb: Put/Get/Delete/iterator confined to a range, batches atomic.
* encoding/json: what package meta marshals unmarshals to the same value if all strings are UTF-8; invalid bytes are replaced.
* bson: what was marshalled unmarshals to the same document up to a normalisation `norm`; marshalling fails exactly where `norm` does.
* qrpc: frames of a stream arrive in order or the connection breaks (it also breaks if a handler panics); then `GetFrame` returns an error and `FrameCh` is closed. A write
  (`StreamRequest`, `EndWrite`) may fail, and after a failed `StreamRequest` a later one may succeed (the client reconnects).

## 6. Plan per property

| id | model | specification | proof |
|---|---|---|---|
| C01, C02 | Memcomparable | lexicographic order `cmp` | big-endian digits, arithmetic |
| C03–C06 | Memcomparable | `cmp` | induction over groups of eight; C06 inverts the decoder |
| C07 | Memcomparable, floats as bit patterns | Spec/Float: value from sign and magnitude | case analysis; counterexamples for NaN, -0 |
| C08–C10 | Compact | – | induction over varint bytes; C09: exact set of panicking inputs |
| C11–C13 | Key | `cmp`, prefixes | induction on the key; counterexamples for keys ending in 0xFF |
| C14 | Server + Wire + Store | one ordered map (Spec/OMap) | simulation, induction over the history |
| C15, C65 | Wire, Server | – | inverse of the marshaller field by field; malformed inputs |
| C16–C18, C23 | Store, Server | Spec/Scan (filter, order, take) | lemma on sorted lists; paging by induction on what is left |
| C19–C22, C58, C61, C74 | Server | transaction as pending writes over a map | simulation of the frame loop; C74 by the position of the break; findings C19_two_sets_fail, C22, C58, C61 computed and generalised |
| C24 | Store | fold of writes | induction with arbitrary split points |
| C25, C60 | Util | atomic bodies; serial order | case analysis over failure points; induction over commits |
| C26–C32 | Structure | Spec/Structure: map, deque | refinement `structures_exact`, induction over histories; frame lemmas on disjoint keys |
| C33–C39 | Sequence | sets of ids handed out | invariant: leases disjoint and below the stored counter; counterexample histories |
| C40 | DocKeys | – | injectivity by the codec lemmas |
| C41, C44 | Document, Dml | Spec/Document: one map per collection | simulation of programs over a transaction |
| C42, C51, C56, C63, C64 | Dml | as above, plus sequence and cache | program equations for every environment |
| C43 | Document, DomainAsk | Spec/DomainAsk: `Ranges`, first and last document in the order of collection and id | scan lemmas; in histories over `Match` and `Ours` (only metadata and documents are stored, and a transaction with a schema sees some metadata) |
| C77 | DomainAsk | Spec/DomainAsk: `Site.Tells` | `Match`: databases in the schema are `Plain` |
| C78 | Ddl | – (`afterTurn` in Props/DdlIndex says what a turn leaves) | evaluates a turn of the worker on the metadata (`MetaCall.sem`); induction over turns. Its hypothesis, a collection with an index map, is met by no history of this program (C77): it is about the worker, not about a process |
| C79 | DocumentDB | Spec/DocumentIndex: `catalogue`; `Ready`, `Storable` and `collectionCall` in Props/DocumentLive | the invariants of C75 and C76 (`Kept`, `Catd`) leave no way to fail: key checks by length, commits by `clash` on what was read, sequences by their counters |
| C80 | Registry | `registered`, `idsOf`, `Sound`/`SoundAlone` in Props/Registry | invariant: the map holds exactly the open objects (`Tab`); ids handed out + ids every object can still hand out + ids above the counter ≤ put back + 1, per collection (`Inv`); one process: an open object's lease ends at the counter (`Held`) |
| C81 | Structure + Util (`Accepted`, `versions`) | `sem` (Lemmas/SProg), `state`, `Fair`, `answered` in Spec/StructShare | a run on the snapshot and a run on the newest contents go in step (`Twin`): scan-free operations by `replay_aux`; HClear because the number of fields is read before it is written (`GetFirst`) and a transaction that does not write it keeps which fields there are (`Stays`, from the counts: an operation that changes the fields changes their number); induction on the history; the enumerations refuted by a concrete write skew |
| C82 | Server + ClientShare (`looks`, `looked`, `noted`: what badger records about a stream) | `Turn`, `Accepted`, `serial`, `alone` in Spec/ClientShare | a body without scans runs alike on contents that agree on the keys recorded as read (`run_onto`, induction on the body, frame by frame); with one Delete the keys written are the keys recorded (`Neat`); induction on the history; two Deletes and scans refuted by concrete histories |
| C83 | Hall (any number of DDL objects, each with its store, over the one table of sequences) | `only`, `told`, `alone`, `Lists`, `Strangers` in Spec/Hall | as long as no id is shared the process is a product of worlds (`Apart`, by `over_step`: further sequences under ids a database does not use change nothing); a worker that meets a foreign sequence stops there (`part_way`), after which `Serves` holds without a worker (`Hung`, preserved by every event anywhere but a crash: an Init looks as if the engine had refused, `refusing`) |
| C84 | Torn (Ddl, cut short: the first `n` sequences of a turn or of Init are made, then only the store is left) | `whole`, `heard`, `told`, `Dies` in Spec/Torn | simulation by Spec/Ddl: a cut event counts as the whole event followed by a crash; `Serves` holds of any part of the sequences (`part_way`, `init_left`), the metadata read is the same up to the counters (`turn_meta`, `sem_same`) |
| C85 | Race (Ddl, but the transactions of calls and of the worker started any number of events ago) | Spec/Race: `Span.Does`, a call answered by what it saw, a request queued now | `Serves` at every moment of the process (`HubOK`); what is read again at the commit ties the snapshot to the present (`Saw`: same list ends, same counter), so an accepted call's writes are those it would make now; then facts about the queue machine as for C54–C57 |
| C86 | Crowd (Domain, with package ddl as in Race) | Spec/Crowd: `Throng`, documents as in Spec/Domain, package ddl as in Spec/Race | `CrowdOK`: `DomainOK` now and `Serves` at every moment of the process; a late transaction of package ddl writes no document, and a step of Spec/Crowd is a looser step of Spec/Domain (`Site.Walk`), for which the facts about documents are proved once; a transaction of package ddl looks up only keys of package meta (and, but for the worker, none of a single database), which transactions on documents leave alone (`aside_run`); the record of C73 (`Course`) is kept on any tape of answers and states, of which a history of Model/Crowd is one |
| C87 | ServerLevel (LevelDB of Model/Store under the handlers of Model/Server) | Spec/ServerLevel: one map of plain values; `deaf` | simulation and induction over the history; C87_as_badger by C14's simulation on the boxed contents; induction over the body |
| C88 | DdlWait (Ddl, with the callers that wait in checkJob) | Spec/DdlWait: `transaction`, `job`, `Doomed`, `Ended`; the databases listed | a look writes nothing, so the process is that of C54–C57 without the waiting; one invariant between the callers and the queue machine (`Callers`: jobs known or blocked, told only what is finished) |
| C89 | DdlLoop (Ddl, with the worker asleep or in handleJobQueue) | Spec/DdlLoop: `told`, `made`, `offered`, `wakes`, `Calm`; `Served`: the job is found synced | the answer of every turn that is not refused is determined by the first request (`Verdict`, evaluating the transaction as for C54); induction over what happens with the process of C54 beside it and an invariant that may depend on what is still to come (`loop_two`) |
| C45, C46, C62 | Index, Document, Sequence | created minus dropped; name ↦ id | invariants over histories with crashes |
| C47–C49 | Meta, Client | Spec/Meta | refinement of every function, then serializability of histories |
| C50–C52 | Schema | list of diffs | invariant on the window of 100 |
| C53, C68–C72 | Domain | Spec/Domain: `Site.Step` | one simulation relation `Match` between the process and `Site`, preserved by every event; the properties are then proved of `Site` histories and carried back |
| C73 | Domain | Spec/Serial: transactions one after the other on documents by name | over `Match`, ghost records of what each transaction did and read (`Course`); a committed writer whose looked-at documents are unchanged since its snapshot answers the same at its commit (`Chain`) |
| C75 | DocumentDB | Spec/DocumentDB, Spec/Serial | one invariant `Kept` (counters and leases, names, objects, the documents at every commit, a ghost record per transaction, and the serial chain), preserved by every event; Close and names by world-only invariants |
| C76 | DocumentDB | Spec/DocumentIndex: the catalogue as the fold of the committed changes | over `Kept`, `Catd` relates the stored entries at every commit to the fold; a CreateIndex whose keys nobody wrote since its snapshot finds its columns free at its commit; what the calls under way are (`Traced`) and what an object remembers (`Mem`) by induction over the history |
| C54, C55, C57, C66, C67 | Ddl | Spec/Ddl: `Proc.Step`, `DState` | one invariant `Serves` between process and queue machine, preserved by every event |

Every property on the list can be expressed in the model; none is `not_applicable`. A claim that turned out false of the code
is restated as what the code does, with the expected claim refuted by a theorem `…_false` (a concrete reachable
counterexample), so that the statement in `properties.jsonl` is exactly what is proved.

## 7. Faults of the code found and proved

* C07 NaN and -0.0 do not survive encoding. C09 compact.DecodeBytes panics on negative lengths. C12/C13 PrefixNext and IsPoint on keys ending in 0xFF.
* C15 Unmarshal panics on lengths near 2^63, so a client can crash the server's goroutine. C16 an offset below the prefix loses entries (C23: LevelDB does not).
* C18 a reverse scan by prefix without offset finds nothing. C19 a transaction takes one Set only. C22 scans in a transaction accumulate.
  C58 the second Delete replaces the first. C74 a connection lost inside a client transaction panics. C87 on LevelDB every request of a transaction panics in the server. C61 an empty key repeats the previous one. C59 a tag without TTL makes the value unreadable.
* C24 Discard of a big batch has committed a part. C32 an empty hash value is dropped. C81 enumerating a hash in a writing transaction is not serializable. C82 a client transaction with two Deletes may change a key the conflict check knows nothing of. C35 NextN beyond the lease or negative repeats ids.
  C37 ReleaseRemaining of document.Sequence loses ids. C38 releasing an older lease repeats ids. C39 Clear of a hash sequence clears the others.
* C42 InsertOne into a missing collection answers (0, nil). C43 GetDidRange of an empty collection. C77 no index ever becomes visible. C44 DeleteAll without a transaction fails.
  C45 index names reused or longer than 255, and a stale in-memory list; C76 the list in memory can go on showing an index that was dropped. C62 ids written by hand collide with InsertOne's. C63 InsertOne in a read-only transaction panics.
* C49 an index outside the queue gives a parse error. C51 without a transaction of the caller nothing is checked. C52 a refused commit leaks the schema lock.
* C54 two requests for the same name, or any AddIndex, block the DDL queue forever. C55 CreateSchema panics if an index is given for a listed collection; before Init it queues the request and panics.
* C66 after an Init that failed half-way, or a second Init, Init fails until the process is restarted.
* C83 the map of document id sequences is global to the process and keyed by collection id only: of two databases in one process the second
  to create a collection hangs forever, or cannot be opened, and ids drawn for it repeat.
* C70 committing a finished transaction again, after more than 100 schema versions, gives back ids in use.

Noticed, not stated as properties: with the empty prefix a structure key can begin with `!badger!`; a list index outside a non-empty list answers
nil without an error; `MetaCache.Clone`
of nil has a nil map; names that are not UTF-8 are changed silently by JSON; `DropSchema` answers success and does nothing.

## 8. Testing the theorems against wrong programs

Scratch copies of the model were edited by hand and by a script that applies small mutations (changed boundary, swapped branch, dropped
update, changed constant) to random definitions, and rebuilt. `seeded/LOG.jsonl` has one line per attempt: definition, edit, claim broken,
theorems that failed, and theorems tightened when nothing failed although the claim had become false.
