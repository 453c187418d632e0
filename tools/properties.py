# Source of properties.jsonl and MANIFEST.json (see gen.py).
PROPS = [
  dict(id='C01',
    title='Signed integers encode order-preservingly and invertibly',
    statement='EncodeInt64(b, v) appends exactly 8 bytes; DecodeInt64 of an encoding followed by any suffix returns the same v and exactly that suffix; byte-wise comparison of two encodings agrees with integer comparison of the values; DecodeInt64 of fewer than 8 bytes is an error; and every 8-byte string is the encoding of exactly one int64.',
    quantifier='all int64 values v, w, all prefixes b and suffixes',
    why_tests_cant='2^128 pairs of values times arbitrary surrounding bytes',
    anchors=['kv/memcomparable/number.go:EncodeInt64', 'kv/memcomparable/number.go:DecodeInt64', 'kv/memcomparable/number.go:EncodeIntToCmpUint', 'kv/memcomparable/number.go:DecodeCmpUintToInt']),
  dict(id='C02',
    title='Descending and unsigned integer encodings',
    statement='EncodeUint64/EncodeUint8 preserve order and EncodeInt64Desc/EncodeUint64Desc reverse it strictly, all round-trip with any leftover, and short input is an error rather than a wrong value.',
    quantifier='all values, all leftovers, all short inputs',
    why_tests_cant='the value space is 2^64 and pairs of it',
    anchors=['kv/memcomparable/number.go:EncodeInt64Desc', 'kv/memcomparable/number.go:EncodeUint64', 'kv/memcomparable/number.go:EncodeUint64Desc', 'kv/memcomparable/number.go:EncodeUint8']),
  dict(id='C03',
    title='EncodeBytes round-trips with leftover',
    statement='DecodeBytes(EncodeBytes(d) ++ rest) returns d and exactly rest, for any d and rest.',
    quantifier='all byte strings d and rest',
    why_tests_cant='unbounded strings; group boundaries and padding interact at every length',
    anchors=['kv/memcomparable/bytes.go:EncodeBytes', 'kv/memcomparable/bytes.go:DecodeBytes', 'kv/memcomparable/bytes.go:decodeBytes']),
  dict(id='C04',
    title='EncodeBytes is order preserving and self-delimiting inside composite keys',
    statement='compare(EncodeBytes(a)++x, EncodeBytes(b)++y) equals compare(a,b) whenever a≠b, and compare(x,y) when a=b; no encoding is a proper prefix of another. Hence composite keys built from encoded components sort component-wise.',
    quantifier='all byte strings a, b and all suffixes x, y',
    why_tests_cant='two unbounded strings and unbounded suffixes',
    anchors=['kv/memcomparable/bytes.go:EncodeBytes', 'structure/keys.go']),
  dict(id='C05',
    title='EncodeBytesDesc reverses the order and round-trips',
    statement='compare(EncodeBytesDesc(a)++x, EncodeBytesDesc(b)++y) is the reverse of compare(a,b) whenever a≠b; DecodeBytesDesc recovers a and the leftover.',
    quantifier='all byte strings and suffixes',
    why_tests_cant='unbounded',
    anchors=['kv/memcomparable/bytes.go:EncodeBytesDesc', 'kv/memcomparable/bytes.go:DecodeBytesDesc', 'kv/memcomparable/bytes.go:reverseBytes']),
  dict(id='C06',
    title='DecodeBytes accepts exactly the canonical encodings',
    statement='If DecodeBytes(s) succeeds with (d, rest) then s = EncodeBytes(d) ++ rest (ascending and descending); every other input is an error, never a panic; EncodedBytesLength is the exact encoded length.',
    quantifier='all byte strings s',
    why_tests_cant='the space of malformed inputs is unbounded',
    anchors=['kv/memcomparable/bytes.go:decodeBytes', 'kv/memcomparable/bytes.go:EncodedBytesLength']),
  dict(id='C07',
    title='Floats encode order-preservingly and round-trip except minus zero and NaN',
    statement='Byte order of EncodeFloat64 (and reversed for EncodeFloat64Desc) equals numeric order for all non-NaN floats, also inside composite keys; decoding returns the same bits for every non-NaN float other than -0.0; -0.0 comes back as +0.0; a NaN can come back as an ordinary number.',
    quantifier='all pairs of 64-bit patterns',
    why_tests_cant='2^128 pairs',
    anchors=['kv/memcomparable/float.go:EncodeFloat64', 'kv/memcomparable/float.go:DecodeFloat64', 'kv/memcomparable/float.go:EncodeFloat64Desc']),
  dict(id='C08',
    title='Compact varint / uvarint / length-prefixed byte encodings round-trip',
    statement='DecodeVarint/DecodeUvarint/DecodeBytes of an encoding followed by any suffix returns the value and the suffix; encoded varints are between 1 and 10 bytes; truncated input is an error.',
    quantifier='all int64/uint64 values, all byte strings, all suffixes',
    why_tests_cant='2^64 values',
    anchors=['kv/compact/number.go', 'kv/compact/bytes.go']),
  dict(id='C09',
    title='compact.DecodeBytes crashes exactly on negative lengths',
    statement='DecodeBytes returns a value or an error for every input, except that it panics exactly on the inputs whose varint length decodes to a negative number (an encoded byte string never does).',
    quantifier='all byte strings',
    why_tests_cant='adversarial inputs are unbounded',
    anchors=['kv/compact/bytes.go:DecodeBytes']),
  dict(id='C10',
    title='Numeric value codecs round-trip',
    statement='Human decimal and 8-byte binary encodings of every int64 decode to the same int64, a missing value is an error, and binary decoding rejects every length other than 8.',
    quantifier='all int64 values / all byte strings',
    why_tests_cant='2^64 values',
    anchors=['kv/numeric/human.go', 'kv/numeric/binary.go']),
  dict(id='C11',
    title='Key.Next is the immediate successor',
    statement='k < Next(k), and no key lies strictly between: any key greater than k is ≥ Next(k).',
    quantifier='all keys k and all keys x',
    why_tests_cant='infinite ordered key space',
    anchors=['kv/key.go:Next']),
  dict(id='C12',
    title='Key.PrefixNext bounds the prefix range',
    statement='Every key starting with k is < PrefixNext(k) exactly if k has a byte other than 0xFF; the keys in [k, PrefixNext(k)) are exactly those starting with k if the last byte of k is not 0xFF, and include others if k ends in 0xFF (and has another byte).',
    quantifier='all keys k and all keys x',
    why_tests_cant='unbounded keys, carry propagation',
    anchors=['kv/key.go:PrefixNext']),
  dict(id='C13',
    title='KeyRange.IsPoint characterises point ranges',
    statement='IsPoint([s,e)) holds iff e is Next(s), or s has a byte other than 0xFF and e is PrefixNext(s); with e = Next(s) the range contains exactly s, with e = PrefixNext(s) it can contain several keys.',
    quantifier='all ranges',
    why_tests_cant='unbounded keys',
    anchors=['kv/key.go:IsPoint']),
  dict(id='C14',
    title='Client single operations over the wire behave as one shared ordered map',
    statement='Any sequence of Set/Get/Exists/Delete/Scan issued by clients outside transactions returns what the same sequence on one abstract map returns: Get returns the last value and meta tag set, ErrKeyNotFound after Delete or before Set, Exists agrees with Get.',
    quantifier='all histories of operations from any number of clients, all keys and values',
    why_tests_cant='histories are unbounded',
    anchors=['client/client.go', 'server/common.go', 'server/cmd_set.go', 'server/cmd_get.go', 'provider/badger.go']),
  dict(id='C15',
    title='Wire messages round-trip and malformed input is rejected',
    statement='Unmarshal(Marshal(m)) = m and Size is exact for every request and response message; Unmarshal into a message that is not fresh merges; Unmarshal of any byte string none of whose varints has nine or more bytes returns a message or an error. (For arbitrary byte strings that is false: a length field near 2^63 overflows an index and panics; counterexample proved.)',
    quantifier='all messages and all byte strings',
    why_tests_cant='unbounded messages, adversarial inputs',
    anchors=['pb/mondis.pb.go'],
    note='The unrestricted robustness clause is refuted (C15_panic); the restricted one is proved for all inputs it ranges over.'),
  dict(id='C16',
    title='Scan returns the first matching entries in key order',
    statement='A Scan with limit n, prefix p and offset o (empty, or not below p) returns, in key order, the first min(n,1000) stored entries whose key starts with p and is ≥ o, each with its current value and meta; limit ≤ 0 returns nothing. An offset that is non-empty and below the prefix can lose entries.',
    quantifier='all stores, prefixes, offsets and limits',
    why_tests_cant='unbounded stores',
    anchors=['client/client.go:Scan', 'server/common.go:handleScan', 'provider/badger.go:scanByBadgerTxn']),
  dict(id='C17',
    title='Paging with Next visits every key once',
    statement='Repeating Scan with offset Next(last key) until fewer than limit entries come back visits every entry under the prefix exactly once in order, on an unchanging store.',
    quantifier='all stores, prefixes and page sizes 1..1000',
    why_tests_cant='unbounded number of pages',
    anchors=['server/common.go:handleScan', 'kv/key.go:Next']),
  dict(id='C18',
    title='Reverse scans return entries in descending order',
    statement='A reverse Scan from offset o (with no prefix, or a prefix of o) returns the entries with key ≤ o, in descending order, as far as they share the prefix; with neither it returns everything in descending order; with a prefix and no offset it starts at the prefix and returns nothing but an entry whose key is the prefix itself.',
    quantifier='all stores and options',
    why_tests_cant='unbounded stores',
    anchors=['provider/badger.go:scanByBadgerTxn']),
  dict(id='C19',
    title='A client Update is all-or-nothing in what the server accepted',
    statement='For every body, network behaviour and storage answer: after Update(fn) the store is either untouched or has all the writes the server recorded; success means the latter, and without success the writes are there only if the connection broke while the commit was being answered. A transaction takes a Set only as its first request: a later one fails the whole Update.',
    quantifier='all transaction bodies',
    why_tests_cant='unbounded op sequences and failure points',
    anchors=['client/client.go:Update', 'client/client_txn.go', 'server/common.go:handleTxnContinuedFrame']),
  dict(id='C20',
    title='A transaction reads its own writes',
    statement="Inside a transaction Get/Exists/Scan see the transaction's own earlier Sets and Deletes over the snapshot, other clients do not see them before commit, and see all after.",
    quantifier='all op sequences',
    why_tests_cant='unbounded',
    anchors=['provider/badger_txn.go', 'server/common.go']),
  dict(id='C21',
    title='View never mutates',
    statement='No sequence of operations inside a read-only transaction (client View or a read-only provider transaction) changes the store; Set and Delete report an error.',
    quantifier='all op sequences',
    why_tests_cant='unbounded',
    anchors=['client/client_txn.go', 'util/util.go:RunInNewTxn', 'provider/badger_txn.go']),
  dict(id='C22',
    title='Scans inside one client transaction accumulate',
    statement='In a client transaction that was opened by another request, the second of two Scans returns the whole answer of the first followed by entries of a scan whose unset options are taken from the first, so scans are not independent.',
    quantifier='all sequences of requests in one transaction',
    why_tests_cant='unbounded histories',
    anchors=['server/common.go:handleTxnContinuedFrame', 'pb/mondis.pb.go:Unmarshal']),
  dict(id='C23',
    title="LevelDB forward scans agree with Badger's",
    statement="For the same contents and an offset that is empty or not below the prefix, the LevelDB provider's Scan delivers the same keys and values in the same order as the Badger provider's and Get, Exists, Set and Delete agree; reverse is an error.",
    quantifier='all stores and options',
    why_tests_cant='unbounded',
    anchors=['provider/leveldb.go:Scan', 'provider/badger.go:Scan']),
  dict(id='C24',
    title='Write batches apply in order',
    statement='Committing a batch leaves the store as if its Sets and Deletes had been applied one by one in order (Badger and LevelDB); discarding leaves the store unchanged unless the batch was too big for one transaction, in which case a prefix of it has been committed.',
    quantifier='all batches',
    why_tests_cant='unbounded',
    anchors=['provider/badger_wb.go', 'provider/leveldb_wb.go']),
  dict(id='C25',
    title='Update helpers are atomic and bounded',
    statement='RunInNewUpdateTxn(+WithCancel,+WithCallback) commits all writes of a body iff it returns nil and the commit succeeds, otherwise the store is unchanged; TryCommitWhenTxnTooBig gives every attempted write to some committed transaction or reports an error, and attempts are bounded.',
    quantifier='all bodies and all commit failure points',
    why_tests_cant='arbitrary bodies and failure points',
    anchors=['util/util.go']),
  dict(id='C26',
    title='String structure Set/Get/Clear/Inc',
    statement='Get returns the last Set, ErrKeyNotFound when cleared or never set; Inc(k, step) returns old+step and stores it, with missing treated as 0.',
    quantifier='all histories',
    why_tests_cant='unbounded',
    anchors=['structure/string.go', 'kv/util.go:IncInt64'],
    theorems=['Mondis.Props.structures_exact', 'Mondis.Props.structures_follow']),
  dict(id='C27',
    title='Lists behave as double-ended queues',
    statement='Any sequence of LPush/RPush/LPop/RPop/LLen/LIndex/LSet/LGetAll/LClear answers as the same sequence on an abstract sequence would.',
    quantifier='all histories of operations on any number of lists',
    why_tests_cant='unbounded histories; index arithmetic on both ends',
    anchors=['structure/list.go'],
    theorems=['Mondis.Props.C26_C29_history', 'Mondis.Props.structures_exact', 'Mondis.Props.structures_follow']),
  dict(id='C28',
    title='Hashes behave as maps with an exact length',
    statement='Any sequence of HSet (of non-empty values)/HGet/HDel/HInc/HLen/HClear answers as a finite map would, and HLen is always the number of fields.',
    quantifier='all histories',
    why_tests_cant='unbounded histories',
    anchors=['structure/hash.go'],
    theorems=['Mondis.Props.C26_C29_history']),
  dict(id='C29',
    title='Hash enumeration is complete and ordered',
    statement='HKeys/HGetAll return every field once in byte order; HGetN the first n; HGetNDesc the last n in reverse.',
    quantifier='all hashes, n',
    why_tests_cant='unbounded',
    anchors=['structure/hash.go:iterateHash', 'structure/hash.go:iterateReverseHash'],
    theorems=['Mondis.Props.C26_C29_history']),
  dict(id='C30',
    title='Structures do not interfere',
    statement='An operation on one key of one type never changes what operations on another key, another type or another prefix observe.',
    quantifier='all pairs of keys, types and states',
    why_tests_cant='keys are arbitrary byte strings that may embed one another',
    anchors=['structure/keys.go']),
  dict(id='C31',
    title='Clear leaves no residue',
    statement='After HClear/LClear the structure reads as never created and no stored entry of it remains.',
    quantifier='all histories',
    why_tests_cant='unbounded',
    anchors=['structure/hash.go:HClear', 'structure/list.go:LClear']),
  dict(id='C32',
    title='Empty hash values',
    statement='HSet(k,f,v) followed by HGet(k,f) returns v for every non-empty v; HSet of an empty value to a missing field is dropped.',
    quantifier='all states',
    why_tests_cant='depends on history',
    anchors=['structure/hash.go:updateHash']),
  dict(id='C33',
    title='Sequence ids are never handed out twice',
    statement='Across any number of sequence objects on one stored counter and any interleaving of New, Next, NextN within the lease, ReNew, releases by the holder of the newest lease, Close, failed commits and crashes, no id is returned twice; ids lie above the initial counter and not above the stored one.',
    quantifier='all interleavings and crash points',
    why_tests_cant='unbounded interleavings',
    anchors=['document/meta/sequence/sequence.go', 'document/meta/sequence/hash.go', 'document/meta/sequence/string.go']),
  dict(id='C34',
    title='A single holder may release and renew safely',
    statement='With one object at a time (dropped or crashed and reopened at will), any sequence of Next/NextN/ReNew/ReleaseRemaining/Close returns strictly increasing ids; if Next returned u, Close(true) succeeded and an object is reopened, its first id is u+1.',
    quantifier='all histories of one holder',
    why_tests_cant='unbounded',
    anchors=['document/meta/sequence/sequence.go']),
  dict(id='C35',
    title='NextN within and beyond the lease',
    statement='NextN(n) within the lease returns exactly n consecutive ids that are never returned again. Beyond the lease it renews without moving the cursor, so the Next that follows returns an id of the range; a negative n rewinds the cursor.',
    quantifier='all histories',
    why_tests_cant='depends on the lease boundary',
    anchors=['document/meta/sequence/sequence.go:NextN']),
  dict(id='C36',
    title='PutBack ids are reused, nothing else is',
    statement='An id is returned again only if it was put back in between, and put-back ids are handed out before fresh ones.',
    quantifier='all histories with PutBack',
    why_tests_cant='unbounded',
    anchors=['document/meta/sequence/sequence.go:PutBack']),
  dict(id='C37',
    title='document.Sequence ids are unique, its release is a no-op',
    statement='document.Sequence.Next never repeats an id across objects, failed renewals, releases and crashes; ReleaseRemaining never changes the store, so released ids are lost.',
    quantifier='all interleavings',
    why_tests_cant='unbounded',
    anchors=['document/sequence.go']),
  dict(id='C38',
    title='Releasing is safe only for the newest lease',
    statement='ReleaseRemaining/Close(true) keeps ids unique if no other object has leased since (C33), or if nothing is left to release; otherwise it rewinds the stored counter below the other lease and ids are handed out twice.',
    quantifier='all interleavings of two holders',
    why_tests_cant='schedule dependent',
    anchors=['document/meta/sequence/hash.go', 'document/meta/sequence/string.go'],
    theorems=['Mondis.Props.C33_unique']),
  dict(id='C39',
    title='Clear of a sequence',
    statement='Clear of a NewString sequence removes its own counter and nothing else; Clear of a NewHash sequence clears the whole hash, resetting every other sequence in it.',
    quantifier='all hashes',
    why_tests_cant='depends on neighbouring state',
    anchors=['document/meta/sequence/hash.go:NewHash']),
  dict(id='C40',
    title='Document keys are injective, disjoint and ordered',
    statement='Document, index and metadata keys of different kinds or different (collection, id) never coincide; keys decode to what they encode; document keys sort by id inside a collection.',
    quantifier='all ids, names, field lists',
    why_tests_cant='unbounded key material',
    anchors=['document/keys.go', 'document/dml/keys.go']),
  dict(id='C41',
    title='Collections behave as id→document maps',
    statement='InsertOne (after its id is drawn), InsertOneManaged, UpdateOne, UpsertOne, DeleteOne, GetOne, GetMany, GetAll, Count and DeleteAll on any collections, in transactions that are committed or thrown away, answer as on one map from id to document per collection (GetAll in id order), up to normalisation by the document format; a transaction diverges only at its first refused write (read-only or too big); an operation called without a transaction does all of its work or none, and touches no key outside its collection.',
    quantifier='all histories over any number of collections',
    why_tests_cant='unbounded histories, documents and interleaved collections',
    anchors=['document/collection.go', 'document/dml/collection.go']),
  dict(id='C42',
    title='Inserting into a missing collection answers id 0 and no error',
    statement='dml InsertOne into a collection that is not in the schema answers id 0 and a nil error and changes nothing, with or without a transaction; every other operation on such a collection reports ErrCollectionNotExists and changes nothing. (One would expect InsertOne to report it too; the code assigns the error to a variable that is then overwritten.)',
    quantifier='all schemas, names, documents that marshal, and transactions',
    why_tests_cant='control-flow detail hidden by err reassignment',
    anchors=['document/dml/collection.go:InsertOne']),
  dict(id='C43',
    title='GetDidRange returns the smallest and largest id',
    statement='For a collection in which a transaction finds a document, GetDidRange answers the smallest and largest id of the documents it finds there, in every history. For an empty collection the answer is wrong: the smallest id of the next collection that has documents (an error for an invalid key if there is none) with the largest id of the previous one (0 if there is none); the error is what every new collection gets until a later one has documents.',
    quantifier='all stores, and all histories of a process serving documents on a new database with these calls anywhere in them',
    why_tests_cant='depends on the neighbours in key space',
    anchors=['document/dml/collection.go:GetDidRange']),
  dict(id='C44',
    title='document DeleteAll without a transaction deletes nothing',
    statement='DeleteAll of package document called without a caller transaction leaves the database unchanged and answers 0 if the collection is empty and a read-only error otherwise. (One would expect it to empty the collection; refuted.)',
    quantifier='all stores',
    why_tests_cant='state dependent',
    anchors=['document/collection.go:DeleteAll']),
  dict(id='C45',
    title='The index catalogue stays consistent',
    statement='document.Collection: after any history of CreateIndex and DropIndex calls (which do not overlap, and never create an index under a name in use), successes, failures, crashes and reopenings, the indexes listed on opening the collection are exactly those created and not dropped, in name order, as defined; CreateIndex is refused exactly for an empty name, no fields, or columns that have an index; ids and column sets are never shared; DropIndex reports whether the index existed; and the in-memory list agrees up to field order and the direction of single columns. False without the assumptions: reusing a name orphans the first index and blocks its columns for ever (C45_name_reuse_false); a name too long for a key is accepted but not stored (C45_long_name_false); the in-memory definition differs from the stored one (C45_memory_false).',
    quantifier='all histories over any number of DB objects and collections, all definitions, names and failures of the store',
    why_tests_cant='agreement of three kinds of stored entries over unbounded histories with failures at every point',
    anchors=['document/collection.go:CreateIndex', 'document/collection.go:DropIndex', 'document/collection.go:getIndexes', 'document/keys.go:EncodeCollectionColumnsIndexedKey']),
  dict(id='C46',
    title='Collection ids are stable and distinct',
    statement='document.DB: however many DB objects are opened, used by turns, closed and crashed over one store, looking up a collection name always answers the same id once it answered one, and two different names never get the same id.',
    quantifier='all histories of openings, Collection calls (with failing, conflicting or successful transactions), closes, crashes and other commits over one store',
    why_tests_cant='the id comes from a leased range renewed in a transaction nested in time inside the one that stores it; uniqueness and stability must survive every interleaving, refused commit and crash',
    anchors=['document/db.go:getCollectionID', 'document/db.go:NewDB', 'document/sequence.go:Next'],
    note='Storage assumptions: a transaction reads an earlier version of the store and is refused if the name it found missing has been stored since; lease renewals as in C37 (no wrap-around of the 64-bit counter). The store must hold no collection names at the start that were not made this way.'),
  dict(id='C47',
    title='Global ids are disjoint',
    statement='Whatever transactions run concurrently on the metadata and whatever else they do, the ranges (start, end] obtained from GenGlobalID and GenGlobalIDs by those that commit follow one another without gap or overlap, from 0, in commit order; so as long as the 64-bit counter does not overflow and no negative number of ids is asked for, no id is handed out twice.',
    quantifier='all numbers of transactions, all programs over package meta (without listings) as their bodies, all interleavings the storage engine accepts',
    why_tests_cant='disjointness must hold under every interleaving of an unbounded number of transactions',
    anchors=['document/meta/meta.go:GenGlobalID', 'document/meta/meta.go:GenGlobalIDs']),
  dict(id='C48',
    title='Schema metadata behaves as maps',
    statement='In every history of transactions over package meta, each answer and effect is the one of the maps from ids to databases, collections, jobs, diffs and counters: creating an existing database or collection and touching a missing one are errors that change nothing; what was created or updated is read back; dropping a database removes its collections and counters; listings contain exactly what exists, each once. A transaction the engine refuses has no effect at all. Concurrent transactions (without listings) answer as if run one after the other in commit order.',
    quantifier='all histories of transactions, all programs over package meta as their bodies, all circumstances (commit failures, size limits), all accepted interleavings',
    why_tests_cant='the state space of histories is unbounded',
    anchors=['document/meta/meta.go', 'util/util.go:RunInNewUpdateTxn'],
    note='Names must be valid UTF-8 (otherwise JSON silently changes them). Go values are encoded by encoding/json, represented by a contract with a concrete inhabitant.'),
  dict(id='C49',
    title='DDL jobs are dequeued in FIFO order and history is listed newest first',
    statement='Under any concurrent transactions the jobs dequeued from a list are, in commit order, exactly the first ones enqueued, in the order enqueued; indexed access counts from the next job (0) to the last one added (-1), and outside a non-empty list it is reported as a parse error; the last N finished jobs are listed by descending id, and no finished job left out has a larger id than one listed.',
    quantifier='all histories and interleavings of transactions that do not rewrite jobs in place',
    why_tests_cant='order must hold under every interleaving and history',
    anchors=['document/meta/meta.go:EnQueueDDLJob', 'document/meta/meta.go:DeQueueDDLJob', 'document/meta/meta.go:GetDDLJobByIdx', 'document/meta/meta.go:GetLastNHistoryDDLJobs']),
  dict(id='C50',
    title='The schema cache holds exactly the last 100 consecutive diffs',
    statement='A schema cache loaded in full at version v and then fed any batches of diffs has applied diffs of versions v+1, v+2, … without a gap; its version is the last one; it retains exactly the last 100; a further batch is accepted exactly if it is not empty, continues at the next version without a gap, and creates databases that decode and have new names; accepted diffs add their databases and keep all others.',
    quantifier='all full loads and all sequences of batches',
    why_tests_cant='unbounded',
    anchors=['document/schema/metacache.go']),
  dict(id='C51',
    title='Commit-time schema check detects exactly the conflicting changes',
    statement='With a schema cache loaded in full at version v and any batches of diffs applied since, the commit-time check never panics and accepts a transaction exactly if its start version is not before v, not more than 100 versions back, and no later diff touched a collection it referred to; so when Commit of a user transaction succeeds, no collection any of its operations used was changed by a diff that is published when the check runs. Not covered by the check: operations that open their own transaction record no collections, so they commit although their collection changed (C51_auto_false); and a change published between the check and the engine commit is missed.',
    quantifier='all caches, batches, start versions, referred sets, and lists of operations in a transaction',
    why_tests_cant='unbounded',
    anchors=['document/schema/handle.go:Check', 'document/txn/txn.go:Commit', 'document/dml/collection.go']),
  dict(id='C52',
    title='A refused commit leaks the schema lock',
    statement='Check gives its read lock back when it accepts and when the window does not reach back; when it finds a conflicting change it does not, and from then on no call on the handle ever publishes a schema: every Update blocks forever. (One would expect the lock to be free after Check; refuted.)',
    quantifier='all caches, start versions, referred sets, and all later calls on the handle',
    why_tests_cant='needs the right schedule',
    anchors=['document/schema/handle.go:Check']),
  dict(id='C53',
    title='Reloading converges to the stored schema and never goes back',
    statement='After a reload (with a publication pending from an earlier one finished first) the published schema is, up to the states of what is in it, the one a process started now would load from the database: same version, same databases with the same ids and collections, no more and no less. A reload never fails. As long as the process lives the published version never gets smaller and what it says about a database never changes.',
    quantifier="all histories, on a fresh database, of CreateSchema/AddIndex requests, worker turns, reloads, publications, transactions interleaved operation by operation, refused commits, crashes and restarts; names are text, counters do not overflow, no transaction exceeds the engine's size limit",
    why_tests_cant='any number of schema changes and reloads in any interleaving, by diffs and by full loads',
    anchors=['document/domain/domain.go:reloadSchema', 'document/domain/domain.go:tryLoadSchemaDiff', 'document/schema/metacache.go:ApplyDiffs', 'document/schema/handle.go:Update']),
  dict(id='C54',
    title='The DDL queue makes progress exactly as far as the first doomed request',
    statement='If no call panicked and the CreateSchema requests accepted so far name different databases (and no AddIndex was accepted), then once the worker has had two turns for each, every one of their callers gets success. But if a request is accepted for a database that an earlier accepted request already names, or an AddIndex is accepted, then that request and every request accepted after it is never finished: whatever happens afterwards (turns of the worker, crashes, restarts, refusals) the job never gets into the history and the callers wait for ever.',
    quantifier='all histories of calls, refused commits, worker turns, crashes and restarts on a fresh database, all map orders, all codecs; names are text and counters do not overflow',
    why_tests_cant='liveness and permanent blocking over unbounded histories with crashes at any point',
    anchors=['document/ddl/ddl_worker.go:handleJobQueue,checkJob', 'document/ddl/ddl_api.go:CreateSchema,AddIndex', 'document/model/model.go:Job']),
  dict(id='C55',
    title='CreateSchema assigns fresh ids or fails cleanly',
    statement='The ids in all jobs handed out by CreateSchema and AddIndex (of jobs, databases, collections, indexes) are positive and pairwise different over the whole history. CreateSchema answers an error for invalid input, a full queue or an existing name, panics if an index is given for a listed collection, and otherwise hands out the job; if it answers an error, or panics once Init has succeeded, the database is unchanged. On a DDL whose Init has not succeeded, a request that would be accepted is queued all the same and its caller gets a panic; on a Domain whose Init has not succeeded the call does nothing to the database. The stored metadata is after every history what the sequence of answers says.',
    quantifier='all histories of calls, refused commits, worker turns, crashes and restarts on a fresh database; names are text and counters do not overflow',
    why_tests_cant='all interleavings of calls, worker and crashes',
    anchors=['document/ddl/ddl_api.go:CreateSchema,AddIndex', 'document/ddl/util.go', 'document/ddl/input.go', 'document/ddl/ddl_worker.go:notifyWorker', 'document/domain/domain.go:Init,DDL']),
  dict(id='C56',
    title='Cancel functions run exactly when Commit fails',
    statement='Commit of an update transaction runs every registered cancel function once, in order, exactly if it returns an error, and then the database is unchanged; on success none runs and the writes are in the database; a second Commit does not run them again; a read-only transaction can have none. So the document ids drawn by inserts in a transaction go back to the sequence exactly if its Commit fails.',
    quantifier='all registered functions, transactions, schemas and outcomes of the engine commit',
    why_tests_cant='failure points',
    anchors=['document/txn/txn.go:Commit']),
  dict(id='C57',
    title='Every schema change bumps the version by one and stores its diff',
    statement='After any history the stored schema version is the number n of databases created; each version 1..n has exactly one diff, that of the database created then with the ids of its collections, other versions have none; and the databases listed are exactly those of the diffs, with their collections and indexes, all of them public; listing the collections of one of them gives exactly its collections.',
    quantifier='all histories of calls, refused commits, worker turns, crashes and restarts on a fresh database; names are text and counters do not overflow',
    why_tests_cant='all interleavings of calls, worker and crashes',
    anchors=['document/ddl/ddl_worker.go:updateSchemaVersion,onCreateSchema', 'document/meta/meta.go']),
  dict(id='C58',
    title='A second Delete inside a client transaction undoes the first',
    statement='Two Deletes of different keys in one client transaction (after it was opened by another request) both report success, but the first key is deleted only if the second does not fit the buffer of the first; otherwise the first key survives (with equal lengths always).',
    quantifier='all bodies',
    why_tests_cant='depends on the order and kinds of requests in the transaction',
    anchors=['server/common.go:handleTxnContinuedFrame']),
  dict(id='C59',
    title='Expiry and tags',
    statement='A value Set with TTL d at time t is readable, with its tag, until a second before t+d, and not from t+d on; a value Set with a tag and TTL 0 succeeds and is never readable.',
    quantifier='all TTLs and clock readings',
    why_tests_cant='all times',
    anchors=['provider/badger_txn.go:Set', 'provider/badger.go:Set']),
  dict(id='C60',
    title='Concurrent update transactions are serializable',
    statement='Any set of update transactions whose bodies use point operations, run concurrently with commits in any order and aborts on conflict, leaves the store as the committed ones run one after the other would; concurrent Incs lose no update.',
    quantifier='all schedules',
    why_tests_cant='unbounded schedules',
    anchors=['util/util.go', 'structure/string.go:Inc']),
  dict(id='C61',
    title='An empty key inside a client transaction repeats the previous key',
    statement='A Get of the empty key inside a client transaction returns what the previous Get returned instead of being refused.',
    quantifier='all bodies',
    why_tests_cant='depends on request history',
    anchors=['server/common.go:handleTxnContinuedFrame']),
  dict(id='C62',
    title='InsertOne uses a fresh id and never overwrites',
    statement='document.Collection.InsertOne, over any number of Collection objects for one collection, reopenings and crashes: the ids it answers are all different; when it answers an id (no transaction given) no document had that id before, the document is readable under it afterwards, and no other document of any collection changed. This holds as long as documents are otherwise only written under ids already in use or answered by InsertOne; InsertOneManaged/UpsertOne with an id above the counter is silently overwritten by a later InsertOne (C62_managed_false).',
    quantifier='all histories of opening, inserting (with and without a transaction), closing, crashing and other commits; all documents, ids and failures',
    why_tests_cant='id uniqueness across processes and crashes is a property of all interleavings',
    anchors=['document/collection.go:InsertOne', 'document/sequence.go:Next']),
  dict(id='C63',
    title='InsertOne in a read-only transaction panics',
    statement='dml InsertOne into an existing collection with a caller-supplied read-only transaction panics as soon as the sequence hands out an id, and the id is used up (instead of returning a read-only error).',
    quantifier='all read-only transactions, documents, collections and sequences',
    why_tests_cant='A test shows the panic for one collection; that no error is ever returned instead needs all of them.',
    anchors=['document/dml/collection.go:InsertOne', 'document/txn/txn.go:AddCancelFunc']),
  dict(id='C65',
    title='A payload that is not a request is refused and changes nothing',
    statement="Whatever bytes a single request or the request opening a transaction carries, if they do not decode as a request of that kind, the client that reads the answer gets the invalid-request error with the decoder's text, the store is unchanged and no transaction is opened; inside a transaction such a Set, Get, Exists, Delete or Scan gets the same error, makes the server drop the transaction and ends the stream.",
    quantifier='all commands, payloads, stores and stream states',
    why_tests_cant='arbitrary byte strings in arbitrary states',
    anchors=['server/cmd_set.go:ServeQRPC', 'server/cmd_get.go:ServeQRPC', 'server/cmd_exists.go:ServeQRPC', 'server/cmd_delete.go:ServeQRPC', 'server/cmd_scan.go:ServeQRPC', 'server/common.go:handleTxnContinuedFrame']),
  dict(id='C64',
    title='dml InsertOne stores the document under the id it answers',
    statement='dml InsertOne into a collection of the schema, when the sequence hands out id d: without a transaction it either answers d and the store then has the document under (collection, d) and nothing else changed, or answers an error and stored nothing (the id is used up or put back); inside a transaction of the caller the document becomes visible in the transaction, is written by its commit, the collection is noted for the schema check and the id goes back to the sequence if the commit fails. Without a transaction the collection is not noted, so a concurrent schema change of it goes unnoticed (refuting what one would expect).',
    quantifier='all documents, schemas, sequences, stores and storage answers',
    why_tests_cant='must hold for every storage answer and schema change between start and commit',
    anchors=['document/dml/collection.go:InsertOne', 'document/dml/base.go:RunInNewUpdateTxn', 'document/txn/txn.go:Commit']),
  dict(id='C66',
    title='Init gives every collection its document id sequence',
    statement='While the DDL worker runs, every collection listed in the database has its sequence: a document id can be drawn unless the engine refuses, and the worker never gets stuck creating sequences. After a crash Init succeeds if the engine refuses no commit. Once a process has the sequence of an existing collection (also from an Init that failed half-way), Init fails every time until the process is restarted.',
    quantifier='all histories of calls, refused commits, worker turns, crashes and restarts on a fresh database; names are text and counters do not overflow',
    why_tests_cant='crash between the commit of a schema and any later event, any number of restarts',
    anchors=['document/ddl/ddl.go:Init', 'document/ddl/ddl_worker.go:onCreateSchema', 'document/dml/sequence.go:CreateSequence']),
  dict(id='C67',
    title='Document ids never repeat over restarts',
    statement='The document ids handed out for a collection strictly increase, starting above 0, over all processes that serve the database one after the other: none is ever handed out twice.',
    quantifier='all histories of calls, refused commits, worker turns, id draws, crashes and restarts on a fresh database, all collections',
    why_tests_cant='crash points and unbounded histories',
    anchors=['document/dml/sequence.go', 'document/meta/did_sequence.go', 'document/meta/sequence/sequence.go', 'document/ddl/ddl.go:Init']),
  dict(id='C68',
    title='Commit fails with a DDL conflict exactly when too much of the schema changed',
    statement='A read-write transaction that is committed passes the schema check exactly if at most 100 schema versions were published since it began (and the schema was not published for the first time since); otherwise Commit fails with ErrDDLConflict. Commit panics only if the transaction was discarded or committed before. The lock taken by the check is always given back, so a reload can always publish.',
    quantifier="all histories, on a fresh database, of CreateSchema/AddIndex requests, worker turns, reloads, publications, transactions interleaved operation by operation, refused commits, crashes and restarts; names are text, counters do not overflow, no transaction exceeds the engine's size limit",
    why_tests_cant='races of commits with schema publications, unbounded numbers of versions',
    anchors=['document/txn/txn.go:Commit', 'document/schema/handle.go:Check', 'document/schema/handle.go:Update', 'document/schema/metacache.go']),
  dict(id='C69',
    title='From CreateSchema to a document',
    statement="Once CreateSchema has succeeded (the request was accepted and its job reached the history) and the worker runs, then at once, with no reload to wait for, DB and Collection find the database and each of the collections asked for; in a new transaction a valid document can be inserted, Commit succeeds unless the engine refuses, and the next transaction reads the document, as it comes back from encoding and decoding, under the id InsertOne returned. Where the reloads do not follow the worker's announcements, the same holds after the next reload.",
    quantifier="all histories, on a fresh database, of CreateSchema/AddIndex requests, worker turns, reloads, publications, transactions interleaved operation by operation, refused commits, crashes and restarts; names are text, counters do not overflow, no transaction exceeds the engine's size limit; every request, collection and document",
    why_tests_cant='every history before the insertion, including crashes and other clients',
    anchors=['document/ddl/ddl.go:CreateSchema', 'document/ddl/ddl_worker.go', 'document/domain/domain.go', 'document/dml/collection.go:InsertOne', 'document/txn/txn.go']),
  dict(id='C70',
    title='InsertOne gives different ids',
    statement='The ids InsertOne returned for a collection are all different, over all transactions and processes, except that ids of transactions whose Commit failed are given again; a transaction whose Commit failed never commits. So documents inserted by committed transactions never overwrite each other. (Assuming Commit is not called again on a finished transaction: after more than 100 further schema versions that call gives back ids in use.)',
    quantifier="all histories, on a fresh database, of CreateSchema/AddIndex requests, worker turns, reloads, publications, transactions interleaved operation by operation, refused commits, crashes and restarts; names are text, counters do not overflow, no transaction exceeds the engine's size limit; all collections",
    why_tests_cant='interleavings of concurrent transactions with failures, restarts and id reuse',
    anchors=['document/dml/collection.go:InsertOne', 'document/dml/sequence.go', 'document/txn/txn.go:AddCancelFunc', 'document/meta/sequence/sequence.go:PutBack']),
  dict(id='C71',
    title='Transactions on documents are isolated',
    statement='Whatever other transactions, reloads and schema changes do, an open transaction sees the same documents and the same schema until it is used again; the stored documents change only when a Commit succeeds, and then exactly the documents the transaction wrote become what they are in the transaction.',
    quantifier='all states and all interleavings of events not addressing the transaction',
    why_tests_cant='interleavings of concurrent transactions',
    anchors=['document/txn/txn.go', 'document/dml/collection.go', 'document/schema/handle.go', 'provider/badger.go']),
  dict(id='C72',
    title='The whole process behaves as specified',
    statement="The answer of every call in every history (CreateSchema, AddIndex, GetJob, Init, reload, transactions and the operations of collections, Commit) is one the specification allows, in which the schema is the number of databases known, a transaction is a copy of all documents, committing copies back the documents written and an id is one given back or one above all handed out; and the documents stored in the end are the specification's.",
    quantifier="all histories, on a fresh database, of CreateSchema/AddIndex requests, worker turns, reloads, publications, transactions interleaved operation by operation, refused commits, crashes and restarts; names are text, counters do not overflow, no transaction exceeds the engine's size limit",
    why_tests_cant='unbounded histories, all interleavings and crash points',
    anchors=['document/domain/domain.go', 'document/txn/txn.go', 'document/dml/collection.go', 'document/dml/db.go', 'document/ddl/ddl.go', 'document/ddl/ddl_worker.go', 'document/schema/handle.go']),
  dict(id='C73',
    title='Transactions behave as if run one after the other',
    statement="Every transaction of a process works on one snapshot: its calls answer what they would answer, run one after the other with nothing else happening, on the documents stored when the snapshot was taken. Given the engine's conflict detection, the transactions that wrote and whose Commit succeeded answer what they would answer if run one after the other in the order of their commits, starting from no documents, and what is stored afterwards is what that leaves; a read-only transaction answers from what the transactions committed before its snapshot leave. This excludes transactions that list, count or empty a collection to which another transaction writes and commits in between (there it is false, by example).",
    quantifier='all histories of a process on a fresh database with any number of transactions interleaved operation by operation, DDL, reloads, crashes and restarts; the engine lets a writing transaction commit only if no key it read was written by a transaction committed since its snapshot',
    why_tests_cant='all interleavings of unboundedly many transactions; a test shows one schedule',
    anchors=['document/txn/txn.go', 'document/dml/collection.go', 'document/domain/domain.go', 'provider/badger_txn.go', 'provider/badger.go']),
  dict(id='C74',
    title='A connection that breaks inside a client transaction panics the caller',
    statement='If the connection breaks while a client transaction (Update or View) that has already received an answer waits for another, or for the answer to its commit, the call does not return an error: it panics. A commit that panics may have been carried out. As long as nothing was answered, and when a request cannot be written at all, an error is returned.',
    quantifier='all transaction bodies, network behaviours, storage answers and positions of the break',
    why_tests_cant='The break has to hit between writing a frame and receiving its answer, at each position of each body.',
    anchors=['client/client_txn.go: getRespFrame, request, Commit', 'client/client.go: Update, View, parse…FromFrame', 'server/common.go: handleTxnContinuedFrame']),
  dict(id='C75',
    title='Package document: processes and transactions sharing one store',
    statement='Any number of document.DB objects, in one process or several, share a store with any number of transactions. Every transaction works on one snapshot, taken by NewTransaction: its calls, on whatever objects, answer what they would answer run one after the other, with nothing else happening, on the documents stored then; in a read-only transaction writing calls are refused. The transactions that wrote and whose Commit succeeded answer what they would answer if run one after the other in the order of their commits from no documents, and what is stored at the end is what that leaves; a read-only transaction answers from what those committed before it was begun leave. (Excluded: a transaction that counts or empties a collection to which another writes and commits in between; there it is false, by example.) InsertOne never gives an id twice for a collection name, whichever object or process is asked. A collection name has one number once and for all, no two names have the same, and every Collection object of a name is of that collection; the empty and the two reserved names are refused. Once Close has returned, no call of that object is under way, and every call of it fails without effect. A call without a transaction is NewTransaction, the call and Commit.',
    quantifier="all histories of NewDB, Collection, documents, indexes, transactions, Close and crashes on a store with none of the package's keys, interleaved at the grain of the engine's atomic steps, with renewals of sequences and engine refusals at any point, no transaction too big, fewer than 2^64/1000 events",
    why_tests_cant='unboundedly many objects, processes, transactions, crash points and schedules; a test shows one of each',
    anchors=['document/db.go: NewDB, Collection, getCollectionID, Close', 'document/collection.go', 'document/sequence.go', 'util/util.go', 'provider/badger_txn.go', 'provider/badger.go']),
  dict(id='C76',
    title='Indexes created and dropped at the same time, by several processes',
    statement="Any number of document.DB objects, in one process or several, call CreateIndex, DropIndex and GetIndexes on one store, overlapping in any way. The indexes of a collection are those whose CreateIndex has committed and whose DropIndex has not. At every moment no two indexes of a collection are on the same columns and no number belongs to two indexes. A CreateIndex commits only if there is no index on its columns at that very moment, whatever was created or dropped since it looked; a DropIndex commits only if the index is there at that moment. A CreateIndex whose snapshot shows an index on the same columns is refused and changes nothing; DropIndex answers false exactly if its snapshot, the state at some moment of the history, shows no such index. What either call answers its caller it has done with its own commit, and it answers once. When Collection opens a collection, in whatever process, that succeeds and GetIndexes lists the indexes of that moment as they were defined; as long as the collection's indexes are changed through one object only, by one call after the other, GetIndexes of the object lists them (fields up to order and the direction of single columns). False without that condition, by example: DropIndex overtaken in memory by the CreateIndex of the same index leaves GetIndexes listing an index that does not exist, and an object does not see what another one changes.",
    quantifier='all histories of package document (as in C75) on a store with none of its keys, in which CreateIndex is given definitions with distinct columns and a name that fits into a key, and no index is stored under a name in use',
    why_tests_cant='the schedules in which calls of several processes overlap between look, commit and bookkeeping are unboundedly many; the conflict detection is exercised only by the rare ones',
    anchors=['document/collection.go:CreateIndex', 'document/collection.go:DropIndex', 'document/collection.go:GetIndexes', 'document/collection.go:getIndexes', 'document/collection.go:newCollection', 'document/sequence.go:Next']),
  dict(id='C77',
    title='Index and GetIndices show the schema, in which there never is an index',
    statement='dml.Collection: Index finds a name exactly if the published schema has such an index of the collection. GetIndices answers ErrCollectionNotExists exactly if the schema its transaction began with lacks the collection, otherwise each of the indexes this schema has of it, once, and only notes the collection as referred to (if the transaction was given). But in every history of a process serving documents, whatever CreateSchema and AddIndex calls were made, Index answers ErrIndexNotExists and GetIndices the empty list: no index ever becomes visible. These calls disturb nothing else.',
    quantifier='all schemas and transactions; all histories of DDL, reloads, transactions and crashes with these calls anywhere in them',
    why_tests_cant='all histories and schemas',
    anchors=['document/dml/collection.go:Index,GetIndices', 'document/schema/metacache.go:CheckIndexExists']),
  dict(id='C78',
    title='How far a job that adds an index gets',
    statement="Where a collection has an index map, each of the first three turns of the DDL worker on a job that adds an index moves the index by exactly one state, from absent over delete-only and write-only to write-reorganization, in the collection's own record and in its database's, changing nothing else in them; each raises the schema version by one and leaves a note naming the collection. From then on every turn leaves the catalogue and the queue exactly as they were: the index never becomes public, the job is never finished and no job behind it ever runs. A job that cannot be carried out (no such database, no such collection, an index of that name before the first turn, a state the worker does not know) is given up in one turn: it leaves the queue and is put into the history with the error, nothing else changes, and asking the history for it fails from then on, because the stored error cannot be read back.",
    quantifier='all catalogues, collections, indexes, orders of map iteration and any number of worker turns',
    why_tests_cant='any catalogue and any number of turns: that the job never finishes is not seen in a finite run',
    anchors=['document/ddl/ddl_worker.go:onAddIndex,updateSchemaVersionAndCollectionInfo,runDDLJob']),
  dict(id='C79',
    title='Package document: calls succeed unless the engine refuses',
    statement='After any history of several DB objects on one store: a DB made by NewDB is usable whatever its two sequences met; a call of Collection with a name that can be stored gives the collection object, under the number every other DB object uses for that name, and a second call gives it again without touching the store; InsertOne in a read-write transaction gives an id, and after Commit the document is what GetOne finds in any later transaction of any DB object; CreateIndex on columns that no index has, and DropIndex of an index that exists, succeed. The caller is alone during the call (others may be in the middle of theirs), and the engine refuses no transaction for its size.',
    quantifier='all histories of NewDB, Collection, transactions, index calls, closes, crashes and faults before the call; all names, documents and definitions',
    why_tests_cant='the store, the leases and the half-finished calls that precede the call are unbounded; a test sees a few of them',
    anchors=['document/db.go:NewDB,Collection,getCollectionID', 'document/collection.go:InsertOne,GetOne,CreateIndex,DropIndex,newCollection', 'document/sequence.go:NewSequence,Next']),
  dict(id='C80',
    title='Document-id sequences: created, dropped, created again',
    statement='In any history of any number of processes in which sequences of document ids are created, asked for, used, dropped (with the remainder released or not), created again, and processes die: GetSequence gives an object exactly if CreateSequence succeeded in this process and it was not dropped since; CreateSequence then fails with ErrSequenceAlreadyExists and changes nothing; DropSequence of one that is not there fails with ErrSequenceNotExists and DropSequenceIfExists succeeds, changing nothing; a dropped object, whoever still holds it, only answers ErrSequenceClosed.  No document id of a collection comes out more often than one plus the number of times it was put back, across dropping and re-creating: with one process without further assumption; with several if a remainder is released only by the holder of the newest lease (otherwise ids do come out twice, C80_release_false).',
    quantifier='all histories of CreateSequence, GetSequence, DropSequence(IfExists), Next, PutBack, crashes and other commits, all outcomes of the transactions, all processes and collections',
    why_tests_cant='the number of re-creations, of processes and of failing commits between them is unbounded, and an id handed out twice only shows in a particular interleaving',
    anchors=['document/dml/sequence.go:GetSequence,CreateSequence,DropSequence,DropSequenceIfExists', 'document/meta/did_sequence.go:NewDocIDSequence', 'document/meta/sequence/sequence.go:Close,Next,PutBack']),
  dict(id='C81',
    title='Strings, hashes and lists shared by concurrent transactions',
    statement='Let any number of transactions run at the same time on one database, each performing any operations of package structure under one prefix, choosing each operation on the answers so far (HClear included, but not the enumerations HKeys, HGetN, HGetAll, HGetNDesc), while others write elsewhere. Then every transaction that was committed was answered exactly as if the committed ones had run one after the other in the order of their commits, on abstract strings, maps and sequences; a transaction opened at any time, committed or not and enumerating or not, sees what the transactions committed before left. In particular a list used as a queue by concurrent producers (RPush) and consumers (LPop) loses nothing, hands nothing out twice and keeps the order of the commits. The enumerations are not protected: a writing transaction that enumerates can commit although no order explains its answers (write skew).',
    quantifier='all prefixes, all numbers of transactions, all operations and adaptive choices of operations, all snapshots and orders of commit the engine accepts, all circumstances in which a refused write makes the transaction give up; fewer than 2^63 elements added',
    why_tests_cant='It ranges over all interleavings of all transactions. HClear reads the fields by a scan, which the engine does not check at commit, so its safety rests on every other operation writing the number of fields whenever it changes which fields there are; a test would have to hit the one interleaving and the one operation that does not.',
    anchors=['structure/hash.go: HClear, updateHash, HDel, loadHashMeta', 'structure/list.go: listPush, listPop', 'structure/string.go: Set, Get, Inc', 'util/util.go: RunInNewUpdateTxn', 'provider/badger_txn.go: Commit, Scan']),
  dict(id='C82',
    title='Clients that use the server at the same time are served as if one at a time',
    statement='Any number of clients run Updates, Views and single operations over the wire at the same time, with frames lost or refused and commits refused on conflict. If the Update bodies do not scan and delete at most once, the store ends as the writing ones leave it when each runs alone in the order in which they finished; each of these returns what it would return alone there, and every other one returns what it would return alone at some moment between its first request and its end. Of clients that look an entry up and delete it in an Update at most one is told it got it. With two Deletes in one Update, or with scans, this is false.',
    quantifier='all histories of any number of clients, all bodies (adaptive, unbounded), all fates of every frame, all refusals by the storage, all points at which a transaction began',
    why_tests_cant='It ranges over all interleavings of any number of client transactions and all losses of frames; a test runs a few schedules, and the anomaly with two Deletes needs a particular overlap of keys.',
    anchors=['server/common.go handleTxnContinuedFrame, handleTxnCommit', 'server/cmd_get.go, cmd_set.go, cmd_delete.go, cmd_exists.go ServeQRPC', 'client/client.go Update, View, Set, Delete', 'client/client_txn.go request, Commit', 'provider/badger_txn.go Get, Commit']),
  dict(id='C83',
    title='Two databases in one process',
    statement="In one process open any number of DDL objects, each on its own store. As long as no collection id is that of a collection of two stores (and ids are drawn for collections of one's own store) every call answers and every store holds what it would if each store had a process of its own. When the worker of a store creates a collection whose id is that of a collection of another open store, it never takes another turn until the process dies: no request that was not answered by then, or is made later, is ever seen finished. In particular this happens to the second of any two empty stores that are each asked for a database with at least one collection. A store that has a collection whose id is that of a collection of a store opened before cannot be opened: Init does not answer nil and no worker starts. And document ids drawn meanwhile for the second store can be handed out again later.",
    quantifier='any number of stores, all interleavings of calls, worker turns, draws, refused commits, crashes and restarts of the process; all schemas for two fresh stores; for Init all stores whatever they hold',
    why_tests_cant='A test opens one store, or a few with a fixed order of requests; that nothing ever wakes the second worker again, and that disjoint stores never notice each other, is about all interleavings',
    anchors=['document/dml/sequence.go: sequenceMap, GetSequence, CreateSequence', 'document/ddl/ddl.go: Init', 'document/ddl/ddl_worker.go: handleJobQueue, onCreateSchema', 'document/dml/collection.go: InsertOne']),
  dict(id='C84',
    title='The process may die in the middle of a DDL turn or of Init',
    statement='A turn of the DDL worker commits a schema and then makes one document id sequence per collection, each in its own transaction; Init likewise. If the process dies after any number of these transactions, everyone later sees what they would see had the turn been finished and the process died then: every metadata read answers the same, the version/diff invariant holds, the next Init succeeds if the engine refuses no commit, a document id can be drawn for every listed collection even if its sequence had never been made, document ids still increase, ids in jobs are still distinct, and every accepted request with its own name is carried out after two turns per request. An Init cut short leaves all metadata as it was.',
    quantifier='all histories of calls, refused commits, worker turns, inits, crashes and restarts on a fresh database in which any number of turns and Inits are cut short by the death of the process after any number of their transactions; names are text and counters do not overflow',
    why_tests_cant='the crash point ranges over every transaction of every turn and every Init, in any number of processes one after the other',
    anchors=['document/ddl/ddl_worker.go:handleJobQueue', 'document/ddl/ddl_worker.go:onCreateSchema', 'document/ddl/ddl.go:Init', 'document/dml/sequence.go:CreateSequence']),
  dict(id='C85',
    title='DDL calls made at the same time as one another and as the worker',
    statement="CreateSchema, AddIndex and GetHistoryJob may be called at any time, from any number of goroutines, while the worker is at work: each call's transaction starts at some moment and commits at a later one. Then still: the stored version is the number of databases created, versions 1 to n have one diff each, the databases listed are those of the diffs, with different names, and their collections are listed; all ids in all jobs handed out are different and positive; drawn document ids increase. Of calls that overlap at most one is accepted. An accepted CreateSchema is for a name that was free when the call started; it may be taken when it is accepted (a database the worker has added meanwhile is not noticed), and then, as for any name an earlier accepted request asked for, it is never carried out, nor is any request accepted after it. Requests for different names, however they overlapped, are all carried out after two undisturbed turns of the worker each.",
    quantifier='all histories of calls, worker turns, draws, crashes and restarts on a fresh database, in which each call and each turn started any number of events earlier and any commit may be refused; names are text and counters do not overflow',
    why_tests_cant="It ranges over all ways in which transactions of any number of goroutines and of the worker overlap; a test runs a few schedules, and the accepted request for a taken name needs the worker's commit to fall between two reads and a commit.",
    anchors=['document/ddl/ddl_api.go CreateSchema, AddIndex, GetHistoryJob', 'document/ddl/ddl_worker.go handleJobQueue', 'document/ddl/util.go checkDBNameNotExists', 'util/util.go RunInNewUpdateTxn', 'document/meta/meta.go GenGlobalIDs, EnQueueDDLJob']),
  dict(id='C86',
    title='Documents, while DDL calls and the worker overlap with everything else',
    statement='While CreateSchema, AddIndex, GetHistoryJob and the worker run at any time and take any time, so that reloads of the schema, other calls and transactions on documents happen between the start and the commit of their transactions, what is said of documents still holds: a document is read as it was last committed, ids InsertOne gives for a collection are not given again (unless the Commit failed), the stored documents change only when a Commit succeeds, an open transaction reads what it would have read before, a reload never fails and leaves the published schema what a new process would load, the published schema only grows while the process lives, Commit fails with ErrDDLConflict exactly if more than 100 databases were published since the transaction began, and as soon as the caller of CreateSchema finds its job in the history a new transaction can insert into, and the next read from, the collections asked for. Every transaction on documents has one snapshot, and (as far as in C73) those that wrote something are serializable in the order of their commits, whatever package ddl does meanwhile. Nor do transactions on documents get into the way of package ddl: a call of CreateSchema, AddIndex or GetHistoryJob does what it would have done had its transaction started only after them, and so does a turn of the worker, unless InsertOne was called meanwhile.',
    quantifier='all histories of DDL calls, worker turns, reloads, transactions on documents, crashes and restarts on a fresh database, in which each DDL call and each turn started any number of events earlier and any commit may be refused; names are text and counters do not overflow',
    why_tests_cant='It ranges over all ways in which transactions of package ddl, reloads and any number of transactions on documents overlap; a test runs a few schedules.',
    anchors=['document/ddl/ddl_api.go CreateSchema, AddIndex, GetHistoryJob', 'document/ddl/ddl_worker.go handleJobQueue', 'document/domain/domain.go Init, onDDLChanged, reload', 'document/dml/collection.go InsertOne, GetOne', 'document/txn/txn.go Commit', 'util/util.go RunInNewUpdateTxn']),
  dict(id='C87',
    title='A server on LevelDB serves single calls as one map and has no transactions',
    statement='A server given the LevelDB provider answers every sequence of Set, Get, Exists, Delete and Scan calls as one shared ordered map of plain values would, under any key (the empty one too): a Set with a TTL or tag and a Scan in reverse are refused and change nothing. Clients that use neither, nor keys Badger does not store, nor offsets below the prefix, get exactly the answers a server on Badger with the same contents gives, and the same is stored in the end. Update and View work only as long as the body makes no request: every request in a transaction fails (the provider panics), so Update reports an error although the body may have ignored it, unless not one request could even be sent; nothing is ever written. A payload that is not a request is refused with the invalid-request code and changes nothing.',
    quantifier='every initial contents, every sequence of calls by any number of clients under any storage failures, every transaction body, every behaviour of the connection, every payload',
    why_tests_cant='equality with Badger must hold after every history, and the failure of transactions for every body and every way the connection can break',
    anchors=['provider/leveldb.go LevelDB.NewTransaction, Set, Get, Exists, Delete, Scan', 'server/common.go handleSet, handleGet, handleExists, handleDelete, handleScan', 'server/cmd_set.go CmdSet.ServeQRPC (and cmd_get, cmd_exists, cmd_delete, cmd_scan)', 'client/client.go Set, Get, Exists, Delete, Scan', 'client/client_txn.go Txn']),
  dict(id='C88',
    title='What the callers of CreateSchema and AddIndex are told',
    statement="A call of CreateSchema or AddIndex that is accepted waits for its job. While any number of callers wait, look and give up, the database and the answers to all other calls are what they would be without the waiting. A caller that waited is told nothing but success, and only if it asked for a database that is then there for everyone to see; it never gets an error out of the queue. It returns with an error only because its own context is over, and then the request is carried out all the same: once the worker had two turns for each of the accepted requests (for databases with different names), all their databases are there, and every caller still waiting is told of success at its next look. But the caller of an AddIndex, or of a request for a database that an accepted call asked for before (for example a caller that gave up and asks again before the worker's turn), is never told anything, and no caller after it ever is.",
    quantifier='all interleavings of calls, worker turns, crashes, restarts, refused commits, looks at any time and contexts over at any time, any number of callers, on a fresh database; names are text and counters do not overflow',
    why_tests_cant='any number of concurrent callers, looks and cancellations at any moment, over unbounded histories with crashes',
    anchors=['document/ddl/ddl_worker.go:checkJob,notifyWorker', 'document/ddl/ddl_api.go:CreateSchema,AddIndex,GetHistoryJob']),
  dict(id='C89',
    title='When the DDL worker works',
    statement="The DDL worker sleeps until its ticker fires or an accepted request's notification finds it waiting; then it makes turn after turn until there is no job or a turn fails. Whatever happens is a history of all the calls and of the turns for which it was awake, so that everything said of such histories holds. Asleep, it makes no turn before it is woken, and a notification sent while it is not waiting is lost. Awake, with all accepted requests for different databases and no refused commits, it tells OnChanged of success after each turn, has served all n requests after 2n turns, whichever notifications were lost, and sleeps after one more. Once a turn that the engine did not refuse ended in an error, every later turn does, also after restarts: OnChanged hears only errors, and the worker makes at most one turn each time it is woken. An AddIndex accepted by an idle worker that it wakes keeps the worker awake for ever: it makes every turn it can, and OnChanged is told of success after each, though nothing is ever done.",
    quantifier='all histories of calls, ticks, turns, crashes and restarts, each notification reaching the worker or not; one successful Init per DDL object; all texts, map orders and refused commits; short enough for no counter to overflow',
    why_tests_cant='Whether a notification finds the worker waiting, when the ticker fires, and how turns, calls and restarts interleave are up to the scheduler; that a worker never sleeps again, or never again does anything, is about unbounded executions.',
    anchors=['document/ddl/ddl_worker.go: start, handleJobQueue, notifyWorker, newWorker', 'document/ddl/ddl.go: Init, start', 'document/ddl/ddl_api.go: CreateSchema, AddIndex']),
]
