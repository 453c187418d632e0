import Verif.Props.ClientTxn
/-!
# C65: requests that are not messages
-/
namespace Mondis.Props
open Mondis Server Client Wire
open Mondis.Wire (KeyRequest SetRequest ScanRequest Status GetResponse ExistsResponse ScanResponse)

theorem status_invalid (cx : Ctx) (e : Err) :
    parseStatus (Status.mk codeInvalidRequest (cx.txt e) []).marshal = .err (.rpc 1 (cx.txt e)) := by
  unfold parseStatus
  rw [status_back (cx.txt_short _) rfl]
  rfl

theorem get_invalid (cx : Ctx) (e : Err) :
    parseGet (GetResponse.mk codeInvalidRequest (cx.txt e) [] none).marshal = .err (.rpc 1 (cx.txt e)) := by
  unfold parseGet
  rw [get_back (cx.txt_short _) (by simp)]
  rfl

theorem exists_invalid (cx : Ctx) (e : Err) :
    parseExists (ExistsResponse.mk codeInvalidRequest (cx.txt e) false).marshal = .err (.rpc 1 (cx.txt e)) := by
  unfold parseExists
  rw [exists_back _ (cx.txt_short _)]
  rfl

theorem scan_invalid (cx : Ctx) (e : Err) :
    parseScan (ScanResponse.mk codeInvalidRequest (cx.txt e) []).marshal = .err (.rpc 1 (cx.txt e)) := by
  unfold parseScan
  have : (ScanResponse.mk codeInvalidRequest (cx.txt e) []).marshal =
      (Status.mk codeInvalidRequest (cx.txt e) []).marshal := by
    simp [ScanResponse.marshal, Status.marshal]
  rw [scan_back' _ (by rw [this]; exact status_small _ (cx.txt_short _) rfl)]
  rfl

/-- Whether the payload is a request of this kind (`Unmarshal` into a fresh request returns no error). -/
def malformed (cmd : Cmd) (payload : Bytes) (e : Err) : Prop :=
  match cmd with
  | .set => SetRequest.unmarshal payload {} = .err e
  | .delete | .get | .exists => KeyRequest.unmarshal payload {} = .err e
  | .scan => ScanRequest.unmarshal payload {} = .err e

/-- What a client makes of an answer, as far as errors go. -/
def parseErr (cmd : Cmd) (d : Bytes) : Option Err :=
  let f {α : Type} (r : Res α) : Option Err := match r with
    | .err e => some e
    | _ => none
  match cmd with
  | .set => f (parseSet d)
  | .delete => f (parseStatus d)
  | .get => f (parseGet d)
  | .exists => f (parseExists d)
  | .scan => f (parseScan d)

/-- The answer to a single request, and the contents afterwards. -/
def single (cx : Ctx) (fail : Option Err) (db : DB) (cmd : Cmd) (payload : Bytes) : Res (Bytes × DB) :=
  match cmd with
  | .set => cmdSet cx fail db payload
  | .delete => cmdDelete cx fail db payload
  | .get => (cmdGet cx db payload).map' (fun d => (d, db))
  | .exists => (cmdExists cx db payload).map' (fun d => (d, db))
  | .scan => (cmdScan cx db payload).map' (fun d => (d, db))

/-- A payload that is not a request of its kind is answered with the invalid-request code and the text of the
error, and changes nothing, whatever bytes it consists of. -/
theorem C65_single (cx : Ctx) (fail : Option Err) (db : DB) (cmd : Cmd) (payload : Bytes) (e : Err)
    (h : malformed cmd payload e) :
    ∃ d, single cx fail db cmd payload = .ok (d, db) ∧ parseErr cmd d = some (.rpc 1 (cx.txt e)) := by
  cases cmd <;> simp only [malformed] at h
  · exact ⟨_, by simp only [single, cmdSet, h]; rfl, by simp only [parseErr, invalid_answer]⟩
  · exact ⟨_, by simp only [single, cmdExists, h, Res.map']; rfl, by simp only [parseErr, exists_invalid]⟩
  · exact ⟨_, by simp only [single, cmdGet, h, Res.map']; rfl, by simp only [parseErr, get_invalid]⟩
  · exact ⟨_, by simp only [single, cmdDelete, h]; rfl, by simp only [parseErr, status_invalid]⟩
  · exact ⟨_, by simp only [single, cmdScan, h, Res.map']; rfl, by simp only [parseErr, scan_invalid]⟩

/-- Opening a transaction with such a payload is answered likewise, and no transaction is opened. -/
theorem C65_opening (cx : Ctx) (upd : Bool) (snap : DB) (cmd : Cmd) (payload : Bytes) (e : Err)
    (h : malformed cmd payload e) :
    ∃ d, opening cx upd snap cmd payload = .ok (d, none) ∧ parseErr cmd d = some (.rpc 1 (cx.txt e)) := by
  cases cmd <;> simp only [malformed] at h
  · exact ⟨_, by simp only [opening, h]; rfl, by simp only [parseErr, invalid_answer]⟩
  · exact ⟨_, by simp only [opening, h]; rfl, by simp only [parseErr, exists_invalid]⟩
  · exact ⟨_, by simp only [opening, h]; rfl, by simp only [parseErr, get_invalid]⟩
  · exact ⟨_, by simp only [opening, h]; rfl, by simp only [parseErr, status_invalid]⟩
  · exact ⟨_, by simp only [opening, h]; rfl, by simp only [parseErr, scan_invalid]⟩

/-- What the answers a stream has given so far may have left behind in the variables the next answer is written
into: fields that were unknown to the client (a Set inside a transaction reads its payload into the answer),
or a value or entries too long for a message. -/
structure Tidy (s : Server.Stream) : Prop where
  set : s.setResp.unk = []
  delete : s.deleteResp.unk = []
  get : s.getResp.value.length < 2 ^ 32
  scan : s.scanResp.entries.length ≤ 2 ^ 20 ∧ ∀ e ∈ s.scanResp.entries, e.key.length < 2 ^ 32 ∧ e.value.length < 2 ^ 32

/-- Whether the payload fails to decode where a stream decodes it: into what the previous request of that kind
left (a Set, oddly, as an answer). -/
def malformedIn (s : Server.Stream) (cmd : Cmd) (payload : Bytes) (e : Err) : Prop :=
  match cmd with
  | .set => Status.unmarshal payload s.setResp = .err e
  | .delete => KeyRequest.unmarshal payload s.deleteReq = .err e
  | .get => KeyRequest.unmarshal payload s.getReq = .err e
  | .exists => KeyRequest.unmarshal payload s.existsReq = .err e
  | .scan => ScanRequest.unmarshal payload s.scanReq = .err e

/-- Inside a transaction, a payload that does not decode is answered with the invalid-request code and the text
of the error too, and ends the transaction: the server discards it. -/
theorem C65_continued (cx : Ctx) (s : Server.Stream) (cmd : Cmd) (payload : Bytes) (e : Err)
    (h : malformedIn s cmd payload e) (hs : Tidy s) :
    ∃ d, continued cx s cmd payload = .ok (d, none) ∧ parseErr cmd d = some (.rpc 1 (cx.txt e)) := by
  have hm := cx.txt_short e
  cases cmd <;> simp only [malformedIn] at h
  · refine ⟨_, by simp only [continued, contSet, h]; rfl, ?_⟩
    simp only [parseErr, parseSet]
    rw [status_back hm hs.set]
    rfl
  · refine ⟨_, by simp only [continued, contExists, h]; rfl, ?_⟩
    simp only [parseErr, parseExists]
    rw [exists_back _ hm]
    rfl
  · refine ⟨_, by simp only [continued, contGet, h]; rfl, ?_⟩
    simp only [parseErr, parseGet]
    rw [get_back hm hs.get]
    rfl
  · refine ⟨_, by simp only [continued, contDelete, h]; rfl, ?_⟩
    simp only [parseErr, parseStatus]
    rw [status_back hm hs.delete]
    rfl
  · refine ⟨_, by simp only [continued, contScan, h]; rfl, ?_⟩
    simp only [parseErr, parseScan]
    rw [scan_back' _ (scan_small { s.scanResp with code := codeInvalidRequest, msg := cx.txt e } hm hs.scan.1 hs.scan.2)]
    rfl

/-- A stream that was just opened is tidy. -/
theorem tidy_opened (t : STxn) : Tidy { txn := t } :=
  ⟨rfl, rfl, Nat.two_pow_pos 32, Nat.zero_le _, fun _ h => nomatch h⟩

/-- A truncated request ends a transaction that was just opened, whatever its command. -/
example (t : STxn) : ∀ cmd : Cmd, malformedIn { txn := t } cmd [0x12, 5, 1] .wire ∨ malformedIn { txn := t } cmd [0x0a, 5, 1] .wire := by
  intro cmd; cases cmd
  · exact .inl (by simp only [malformedIn]; decide)
  all_goals exact .inr (by simp only [malformedIn]; decide)

/-- Truncated requests are malformed, for every command. -/
example : ∀ cmd : Cmd, malformed cmd [0x0a, 5, 1] .wire := by
  intro cmd; cases cmd <;> simp only [malformed] <;> decide

end Mondis.Props
