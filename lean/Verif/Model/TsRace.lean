import Verif.Model.TsClient
/-! Calls of `indexHeaders` (src/file/index-file.ts:130-147) on one `IndexFileV1` object that run at the same time.

JavaScript runs one call until its next `await`; then any call whose promise is settled may go on.  A step of this model is
what one call does between two `await`s; the calls share the array `linkedMetaPages`.  Any call may make the next step (so
that requests may be answered in any order).  The index file does not change meanwhile; what the pages keep of it
(Model/TsSession.lean) makes then no difference and is left out. -/
namespace Appendable

/-- Where a call of `indexHeaders` is. -/
inductive TsCall where
  /-- before line 131 -/
  | start
  /-- in `fetchMetaPages`, waiting for the first slot (lines 112-113) -/
  | first
  /-- in the loop of `fetchMetaPages`, waiting for the slot after `p` (line 122) -/
  | walk (p : TsPage)
  /-- `fetchMetaPages` has returned (line 132) -/
  | fetched
  /-- in the loop, at number `i`, waiting for the metadata of `p` (line 138) -/
  | read (i : Nat) (p : TsPage) (ms : List TsIndexMeta)
  /-- in the loop, at number `i`, waiting for the slot after `p` (line 140) -/
  | reading (i : Nat) (p : TsPage) (ms : List TsIndexMeta)
  /-- the result -/
  | done (r : Res (List (Bytes × List Nat)))
  deriving DecidableEq, Repr

/-- The test of the loop, src/file/index-file.ts:136, and line 137 or 146: the length of the array is read each time. -/
def tsLoopAt (linked : List TsPage) (i : Nat) (ms : List TsIndexMeta) : TsCall :=
  match linked[i]? with
  | none => .done (.ok (tsCollectMetas ms))
  | some p => .read i p ms

/-- One step of a call (src/file/index-file.ts:111-147): where it is then, and the array `linkedMetaPages`. -/
def TsCall.step (idx : Resolver) (linked : List TsPage) : TsCall → TsCall × List TsPage
  | .start => if linked = [] then (.first, linked) else (tsLoopAt linked 0 [], linked)
  | .first =>
    match tsFilePage.next idx with
    | .panic => (.done .panic, linked)
    | .err e => (.done (.err e), linked)
    | .ok none => (.done (.err (.msg "failed to fetch meta pages")), linked)
    | .ok (some p) => (.walk p, linked ++ [p])
  | .walk p =>
    match p.next idx with
    | .panic => (.done .panic, linked)
    | .err e => (.done (.err e), linked)
    | .ok none => (.fetched, linked)
    | .ok (some q) => (.walk q, linked ++ [q])
  | .fetched => (tsLoopAt linked 0 [], linked)
  | .read i p ms =>
    match p.indexMeta idx with
    | .panic => (.done .panic, linked)
    | .err e => (.done (.err e), linked)
    | .ok m => (.reading i p (ms ++ [m]), linked)
  | .reading i p ms =>
    match p.next idx with
    | .panic => (.done .panic, linked)
    | .err e => (.done (.err e), linked)
    | .ok none => (.done (.ok (tsCollectMetas ms)), linked)
    | .ok (some _) => (tsLoopAt linked (i + 1) ms, linked)
  | .done r => (.done r, linked)

/-- The array `linkedMetaPages` of one `IndexFileV1`, and the calls. -/
structure TsCalls where
  linked : List TsPage
  calls : List TsCall

/-- Call number `k` makes a step. -/
def TsCalls.step (idx : Resolver) (s : TsCalls) (k : Nat) : TsCalls :=
  match s.calls[k]? with
  | none => s
  | some c => ⟨(c.step idx s.linked).2, s.calls.set k (c.step idx s.linked).1⟩

/-- The calls make steps in the order `order`. -/
def TsCalls.run (idx : Resolver) (s : TsCalls) (order : List Nat) : TsCalls := order.foldl (TsCalls.step idx) s

end Appendable
