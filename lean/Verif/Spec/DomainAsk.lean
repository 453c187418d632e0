import Verif.Spec.Domain
import Verif.Model.DomainAsk
/-!
# Specification of Index, GetIndices and GetDidRange in a process serving documents

Nothing here can have an index.  GetDidRange looks at the documents of all collections in the order of their ids.
-/
namespace Mondis.Spec
open Mondis Domain

variable {D : Type}

/-- The first document of collection `x` and the ones after it has this document id. -/
def FirstFrom (A : Docs D) (x did : Int64) : Prop :=
  ∃ c, x ≤ c ∧ (A c).get did ≠ none ∧ ∀ c' d', x ≤ c' → (A c').get d' ≠ none → c < c' ∨ c = c' ∧ did ≤ d'

/-- The last document of collection `x` and the ones before it has this document id. -/
def LastUpTo (A : Docs D) (x did : Int64) : Prop :=
  ∃ c, c ≤ x ∧ (A c).get did ≠ none ∧ ∀ c' d', c' ≤ x → (A c').get d' ≠ none → c' < c ∨ c' = c ∧ d' ≤ did

/-- What GetDidRange answers on collection `x`. -/
inductive Ranges (A : Docs D) (x : Int64) : Res (Int64 × Int64) → Prop where
  /-- there is no document in it or in a later collection: what comes next is not a document -/
  | beyond : (∀ c d, x ≤ c → (A c).get d = none) → Ranges A x (.err Doc.errInvalidKey)
  /-- there is none in it or in an earlier collection -/
  | before (lo : Int64) : FirstFrom A x lo → (∀ c d, c ≤ x → (A c).get d = none) → Ranges A x (.ok (lo, 0))
  | ok (lo hi : Int64) : FirstFrom A x lo → LastUpTo A x hi → Ranges A x (.ok (lo, hi))

namespace Site

/-- One of these calls; nothing changes. -/
inductive Tells (S : Site D) : Ask → Told → Prop where
  | index {db coll name} : Tells S (.index db coll name) (.found (.err errIndexNotExists))
  | indices {k v db coll mark x} : S.visit k = some v → v.phase = .ready →
      collectionIn S.proc.state.dbs v.schema db coll = some x → Tells S (.indices k db coll mark) (.indices (.ok []))
  | indicesNowhere {k v db coll mark} : S.visit k = some v → v.phase = .ready →
      collectionIn S.proc.state.dbs v.schema db coll = none →
      Tells S (.indices k db coll mark) (.indices (.err Dml.errCollectionNotExists))
  | indicesNot {k db coll mark} : (∀ v, S.visit k = some v → v.phase ≠ .ready) → Tells S (.indices k db coll mark) .none
  | range {k v db coll mark x r} : S.visit k = some v → v.phase = .ready →
      collectionIn S.proc.state.dbs v.schema db coll = some x → Ranges v.docs x r →
      Tells S (.range k db coll mark) (.range r)
  | rangeNowhere {k v db coll mark} : S.visit k = some v → v.phase = .ready →
      collectionIn S.proc.state.dbs v.schema db coll = none →
      Tells S (.range k db coll mark) (.range (.err Dml.errCollectionNotExists))
  | rangeNot {k db coll mark} : (∀ v, S.visit k = some v → v.phase ≠ .ready) → Tells S (.range k db coll mark) .none

/-- A history with these calls in it. -/
inductive Acts (norm : D → Res D) : Site D → List (Act D) → List (Reply D) → Site D → Prop where
  | nil {S} : Acts norm S [] [] S
  | ev {S e a S' es as S''} : Step norm S e a S' → Acts norm S' es as S'' → Acts norm S (.ev e :: es) (.ev a :: as) S''
  | ask {S q a es as S''} : Tells S q a → Acts norm S es as S'' → Acts norm S (.ask q :: es) (.ask a :: as) S''

end Site

/-- The events among them. -/
def eventsOf (l : List (Act D)) : List (Ev D) := l.filterMap (fun
  | .ev e => some e
  | .ask _ => none)

end Mondis.Spec
