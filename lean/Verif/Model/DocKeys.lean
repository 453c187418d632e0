import Verif.Model.Memcomparable
import Verif.Model.Compact
import Verif.Model.Key
/-!
# Model of document/keys.go, document/dml/keys.go and document/keyspace

The two keys.go files contain the same functions (dml/keys.go adds DecodeCollectionDocumentKey and has
no columns key); each definition cites document/keys.go unless said otherwise.  The `buf` argument is nil
at every call site, so the functions here start from the empty buffer.
-/
namespace Mondis.Doc
open Mondis Memcomparable

/-- keyspace/keyspace.go:9 CollectionPrefix = "_md_c" -/
def collectionPrefix : Bytes := [95, 109, 100, 95, 99]
/-- keyspace/keyspace.go:7 MetaPrefix = "_md_m" -/
def metaPrefix : Bytes := [95, 109, 100, 95, 109]
/-- keys.go:18 documentPrefix = "_d" -/
def documentPrefix : Bytes := [95, 100]
/-- keys.go:19 indexDataPrefix = "_id" -/
def indexDataPrefix : Bytes := [95, 105, 100]
/-- keys.go:20 columnsIndexedPrefix = "_ci" -/
def columnsIndexedPrefix : Bytes := [95, 99, 105]
/-- keys.go:21 indexNamePrefix = "_in" -/
def indexNamePrefix : Bytes := [95, 105, 110]
/-- keys.go:24 metaSequencePrefix = "_md_m_s" -/
def metaSequencePrefix : Bytes := metaPrefix ++ [95, 115]
/-- keys.go:26 metaCName2IDPrefix = "_md_m_cn2id" -/
def metaCName2IDPrefix : Bytes := metaPrefix ++ [95, 99, 110, 50, 105, 100]
/-- keys.go:30 metaIndexPrefix = "_md_m_i" -/
def metaIndexPrefix : Bytes := metaPrefix ++ [95, 105]

/-- keys.go:45-53 AppendCollectionDocumentPrefix; dml/keys.go:42-50 -/
def documentKeyPrefix (cid : Int64) : Bytes := encodeInt64 collectionPrefix cid ++ documentPrefix

/-- keys.go:56-64 EncodeCollectionDocumentKey; dml/keys.go:53-61 -/
def documentKey (cid did : Int64) : Bytes := encodeInt64 (documentKeyPrefix cid) did

/-- keys.go:67-75 AppendCollectionIndexDataPrefix; dml/keys.go:64-72 -/
def indexDataKeyPrefix (cid : Int64) : Bytes := encodeInt64 collectionPrefix cid ++ indexDataPrefix

/-- collection.go:372-375 IndexField -/
structure IndexField where
  name : Bytes
  desc : Bool
  deriving DecidableEq, Repr

/-- One insertion of the insertion sort below. -/
def insertField (f : IndexField) : List IndexField → List IndexField
  | [] => [f]
  | g :: l => if f.name < g.name then f :: g :: l else g :: insertField f l

/-- sort.Slice(fields, by Name).  sort.Slice is an insertion sort up to 12 elements; for longer lists
with equal names Go leaves their relative order open, here they keep it. -/
def sortFields (l : List IndexField) : List IndexField := l.foldl (fun acc f => insertField f acc) []

/-- keys.go:88-94: a single field loses its direction, several fields are sorted by name.  (In Go this
changes the caller's slice in place.) -/
def normFields : List IndexField → List IndexField
  | [f] => [{ f with desc := false }]
  | l => sortFields l

/-- keys.go:101-109, the loop over the fields -/
def encodeFields : Bytes → List IndexField → Res Bytes
  | b, [] => .ok b
  | b, f :: l => do
    let b ← Compact.encodeUvarint b (if f.desc then 1 else 0)
    let b ← Compact.encodeBytes b f.name
    encodeFields b l

/-- keys.go:78-111 EncodeCollectionColumnsIndexedKey -/
def columnsIndexedKey (cid : Int64) (fields : List IndexField) : Res Bytes :=
  encodeFields (encodeInt64 collectionPrefix cid ++ columnsIndexedPrefix) (normFields fields)

/-- keys.go:114-121 EncodeMetaSequenceKey -/
def metaSequenceKey (keyword : Bytes) : Bytes := metaSequencePrefix ++ keyword

/-- keys.go:124-131 EncodeMetaCollectionName2IDKey -/
def metaCollectionName2IDKey (cname : Bytes) : Bytes := encodeBytes metaCName2IDPrefix cname

/-- keys.go:134-141 EncodeMetaIndexKey -/
def metaIndexKey (iid : Int64) : Bytes := encodeInt64 metaIndexPrefix iid

/-- keys.go:144-152 AppendCollectionIndexNamePrefix -/
def indexNameKeyPrefix (cid : Int64) : Bytes := encodeInt64 collectionPrefix cid ++ indexNamePrefix

/-- keys.go:155-164 EncodeCollectionIndexName2IDKey -/
def indexName2IDKey (cid : Int64) (iname : Bytes) : Bytes :=
  encodeBytes (encodeInt64 collectionPrefix cid ++ indexNamePrefix) iname

/-- keys.go: fmt.Errorf("invalid collection … key") -/
def errInvalidKey : Err := .other 60

/-- dml/keys.go:142-171 DecodeCollectionDocumentKey; what follows the document id is not looked at. -/
def decodeDocumentKey (key : Bytes) : Res (Int64 × Int64) :=
  if key.length < 5 + 8 + 2 + 8 then .err errInvalidKey
  else if Key.hasPrefix key collectionPrefix = false then .err errInvalidKey
  else match decodeInt64 (key.drop 5) with
    | .err e => .err e
    | .panic => .panic
    | .ok (key, cid) =>
      if Key.hasPrefix key documentPrefix = false then .err errInvalidKey
      else match decodeInt64 (key.drop 2) with
        | .err _ => .err errInvalidKey
        | .panic => .panic
        | .ok (_, did) => .ok (cid, did)

/-- keys.go:175-212 DecodeCollectionIndexName2IDKey; dml/keys.go:173-210 -/
def decodeIndexName2IDKey (key : Bytes) : Res (Int64 × Bytes) :=
  if key.length ≤ 5 + 8 + 3 then .err errInvalidKey
  else if Key.hasPrefix key collectionPrefix = false then .err errInvalidKey
  else match decodeInt64 (key.drop 5) with
    | .err e => .err e
    | .panic => .panic
    | .ok (key, cid) =>
      if Key.hasPrefix key indexNamePrefix = false then .err errInvalidKey
      else match decodeBytes (key.drop 3) with
        | .err _ => .err errInvalidKey
        | .panic => .panic
        | .ok (rest, iname) => if rest.length > 0 then .err errInvalidKey else .ok (cid, iname)

end Mondis.Doc
