import Verif.Model.Db
/-! The HTTP server (src/server.rs) and the conversions between stored and wire types. -/
namespace Verif

/-! ### Wire types (src/proto/types.rs, src/proto/remote.rs), as values -/

/-- `LabelMatcher_Type` (src/proto/types.rs:1175-1180). -/
inductive MatcherType | eq | neq | re | nre
deriving DecidableEq, Repr

/-- `LabelMatcher` (src/proto/types.rs:914-922). -/
structure LabelMatcher where
  type : MatcherType
  name : Str
  value : Str
deriving DecidableEq, Repr

/-- `Query` (src/proto/remote.rs:712-721), without hints, which the program does not use. Timestamps are `i64`. -/
structure PQuery where
  start_ : Int
  end_ : Int
  matchers : List LabelMatcher
deriving DecidableEq, Repr

/-- `Sample` (src/proto/types.rs:31-38): `i64` timestamp, bits of the `f64` value. -/
structure Sample where
  value : U64
  timestamp : Int
deriving DecidableEq, Repr

/-- `TimeSeries` (src/proto/types.rs:250-257). -/
structure PSeries where
  labels : List Label
  samples : List Sample
deriving DecidableEq, Repr

/-! ### Conversions -/

/-- `u64 as i64`. -/
def asI64 (t : U64) : Int := t.toInt
/-- `i64 as u64`. -/
def asU64 (t : Int) : U64 := BitVec.ofInt 64 t

/-- `From<&TimePoint> for Sample` (src/common/time_point.rs:41-50). -/
def toSample (p : TimePoint) : Sample := ⟨p.val, asI64 p.ts⟩
/-- `From<&Sample> for TimePoint` (src/common/time_point.rs:52-59). -/
def ofSample (s : Sample) : TimePoint := ⟨asU64 s.timestamp, s.value⟩

/-- `From<&(Labels, Vec<TimePoint>)> for TimeSeries` (src/common/time_series.rs:66-75; labels: src/common/label.rs:67-76). -/
def toSeries (e : Labels × List TimePoint) : PSeries := ⟨e.1, e.2.map toSample⟩
/-- `From<&proto::TimeSeries> for TimeSeries` (src/common/time_series.rs:77-85; labels: src/common/label.rs:78-85). -/
def ofSeries (s : PSeries) : Labels × List TimePoint := (s.labels, s.samples.map ofSample)

/-- `Label::from_label_matcher` (src/common/label.rs:19-24): the matcher type is not looked at. -/
def ofMatcher (m : LabelMatcher) : Label := ⟨m.name, m.value⟩

/-! ### Endpoints -/

/-- What the server uses of the database: `query` (src/db.rs:202-267) and `write_time_points` (src/db.rs:176-194). -/
structure DbApi (δ : Type) where
  query : δ → Labels → U64 → U64 → Res (List (Labels × List TimePoint))
  write : δ → Labels → List TimePoint → Res Unit × δ

/-- One query of `MonolithServer::query` (src/server.rs:139-156): errors give an empty result. -/
def answerQuery {δ : Type} (D : DbApi δ) (db : δ) (q : PQuery) : Res (List PSeries) :=
  match D.query db (q.matchers.map ofMatcher) (asU64 q.start_) (asU64 q.end_) with
  | .ok r => .ok (r.map toSeries)
  | .err _ => .ok []
  | .panic => .panic

/-- `MonolithServer::query` (src/server.rs:133-169). -/
def serverQuery {δ : Type} (D : DbApi δ) (db : δ) (qs : List PQuery) : Res (List (List PSeries)) := Res.mapM (answerQuery D db) qs

/-- `MonolithServer::write` (src/server.rs:171-180). -/
def serverWrite {δ : Type} (D : DbApi δ) : δ → List PSeries → Res Unit × δ
  | db, [] => (.ok (), db)
  | db, s :: ss =>
    match D.write db (ofSeries s).1 (ofSeries s).2 with
    | (.ok (), db') => serverWrite D db' ss
    | r => r

/-- A parsed `ReadRequest` (src/proto/remote.rs:225-232): the queries, and whether `compute_size() == 0`. -/
structure ReadReq where
  queries : List PQuery
  sizeZero : Bool

/-- Formats: Snappy (crate snap) and Protobuf. `none` is an error. A failing `merge_from` leaves what was read so far; the
write path uses it (src/server.rs:112-113), the read path does not. -/
structure Formats where
  decompress : Str → Option Str
  parseRead : Str → Option ReadReq
  parseWrite : Str → List PSeries
  respond : List (List PSeries) → Str

/-- Configured paths (src/server.rs:27-28). -/
structure Paths where
  read : Str
  write : Str

/-- A request: URL, and the body or `none` if reading it fails. -/
structure Request where
  url : Str
  body : Option Str

/-- A response: status and body. -/
structure Response where
  status : Nat
  body : Str
deriving DecidableEq, Repr

/-- `_process` (src/server.rs:65-131): `none` is a panic (the program does not respond; the HTTP library sends an empty 500 when
it drops the request during unwinding, which is not modelled). The method is not looked at. -/
def process {δ : Type} (D : DbApi δ) (F : Formats) (P : Paths) (db : δ) (r : Request) : Option Response × δ :=
  match r.body with
  | none => (none, db)
  | some body =>
    match F.decompress body with
    | none => (none, db)
    | some content =>
      if r.url = P.read then
        match F.parseRead content with
        | none => (some ⟨500, []⟩, db)
        | some req =>
          if req.sizeZero then (some ⟨500, []⟩, db)
          else match serverQuery D db req.queries with
            | .ok res => (some ⟨200, F.respond res⟩, db)
            | .err _ => (some ⟨500, []⟩, db)
            | .panic => (none, db)
      else if r.url = P.write then
        match serverWrite D db (F.parseWrite content) with
        | (.ok (), db') => (some ⟨200, []⟩, db')
        | (.err _, db') => (some ⟨500, []⟩, db')
        | (.panic, db') => (none, db')
      else (some ⟨404, []⟩, db)

/-- `serve` (src/server.rs:47-63): requests one after another (`install` waits for the closure and re-raises its panic in the
calling thread, which ends the loop and the process). Unserved requests get `none`. -/
def serve {δ : Type} (D : DbApi δ) (F : Formats) (P : Paths) : δ → List Request → List (Option Response) × δ
  | db, [] => ([], db)
  | db, r :: rs =>
    match process D F P db r with
    | (none, db') => (none :: rs.map fun _ => none, db')
    | (some x, db') => (some x :: (serve D F P db' rs).1, (serve D F P db' rs).2)

/-- The database over sled chunks as the server sees it, without concurrent swap: the state is the current chunk. -/
def sledDb (B : BinSearch) (H : Hash) (secondary : List View) : DbApi (Chunk SledStores) where
  query c q a b := dbQuery H (c.view (sledComp B)) secondary q a b
  write c ls ps := writeTimePoints (sledComp B) c ls ps

end Verif
