import Verif.Model.Chunk
import Verif.Model.Conc
/-! The database (src/db.rs): batch writes, result merging, swaps, timer, metadata check. -/
namespace Verif

/-! ### HashMap keyed by label sets -/

/-- What the program does not fix about `HashMap<Labels, _>`: which stored keys a lookup key is compared with (those whose
hash looks the same; an equal key always is) and in which order entries are probed and iterated. -/
structure Hash where
  tag : Labels → Labels → Bool
  refl : ∀ k, tag k k = true
  order : List Labels → List Labels
  perm : ∀ l, (order l).Perm l

/-- The entries of a map. -/
abbrev HMap := List (Labels × List TimePoint)

/-- Probing: compare with `Labels::eq` (src/common/label.rs:99-108), which may panic (`none`). -/
def Hash.scan (H : Hash) (k : Labels) : List Labels → Option (Option Labels)
  | [] => some none
  | k' :: ks =>
    if H.tag k k' then
      match labelsEq k k' with
      | none => none
      | some true => some (some k')
      | some false => H.scan k ks
    else H.scan k ks

/-- Lookup: the stored key that was found. -/
def HMap.find (H : Hash) (m : HMap) (k : Labels) : Option (Option Labels) := H.scan k (H.order (m.map (·.1)))

/-- Change the value of a stored key. -/
def HMap.modify (m : HMap) (k : Labels) (f : List TimePoint → List TimePoint) : HMap := m.map fun e => if e.1 = k then (e.1, f e.2) else e

/-- `HashMap::insert`: replaces the value of the key found, else adds an entry. -/
def HMap.insert (H : Hash) (m : HMap) (k : Labels) (v : List TimePoint) : Option HMap :=
  match m.find H k with
  | none => none
  | some none => some (m ++ [(k, v)])
  | some (some k') => some (m.modify k' fun _ => v)

/-- `match get_mut { Some(val) => val.append(..), None => insert(..) }` (src/db.rs:240-247). -/
def HMap.append (H : Hash) (m : HMap) (k : Labels) (v : List TimePoint) : Option HMap :=
  match m.find H k with
  | none => none
  | some none => m.insert H k v
  | some (some k') => some (m.modify k' (· ++ v))

/-! ### Query -/

/-- What the database sees of a chunk: `query` and `is_with_range`. -/
structure View where
  query : Labels → U64 → U64 → Res (List Series)
  within : U64 → U64 → Bool

/-- A chunk as seen by the database. -/
def Chunk.view {σ : Type} (C : Comp σ) (c : Chunk σ) : View := ⟨c.query C, c.isWithRange⟩

/-- A loop over the series of one chunk. -/
def addSeries (f : HMap → Labels → List TimePoint → Option HMap) (m : HMap) : List Series → Option HMap
  | [] => some m
  | s :: ss =>
    match f m s.labels s.points.reverse with
    | none => none
    | some m' => addSeries f m' ss

/-- The first critical section of `query`: the current chunk (src/db.rs:211-224). -/
def queryCurrent (H : Hash) (cur : View) (q : Labels) (a b : U64) : Option HMap :=
  match cur.query q a b with
  | .ok ss => addSeries (HMap.insert H) [] ss
  | .err _ => some []
  | .panic => none

/-- The loop over the other chunks, newest first (src/db.rs:228-252). -/
def querySecondary (H : Hash) (q : Labels) (a b : U64) : List View → HMap → Option HMap
  | [], m => some m
  | v :: vs, m =>
    if v.within a b then
      match v.query q a b with
      | .ok ss =>
        match addSeries (HMap.append H) m ss with
        | none => none
        | some m' => querySecondary H q a b vs m'
      | .err _ => querySecondary H q a b vs m
      | .panic => none
    else querySecondary H q a b vs m

/-- The result vector (src/db.rs:255-266): every key is looked up again, points are reversed. -/
def collectKeys (H : Hash) (m : HMap) : List Labels → Option (List (Labels × List TimePoint))
  | [] => some []
  | k :: ks =>
    match m.find H k with
    | none => none
    | some none => collectKeys H m ks
    | some (some k') =>
      match m.find? (fun e => decide (e.1 = k')) with
      | none => collectKeys H m ks
      | some e =>
        match collectKeys H m ks with
        | none => none
        | some r => some ((e.1, e.2.reverse) :: r)

/-- `MonolithDb::query` (src/db.rs:202-267) without concurrent swap. `secondary` is the vector of older chunks. -/
def dbQuery (H : Hash) (cur : View) (secondary : List View) (q : Labels) (a b : U64) : Res (List (Labels × List TimePoint)) :=
  match queryCurrent H cur q a b with
  | none => .panic
  | some m =>
    match querySecondary H q a b secondary.reverse m with
    | none => .panic
    | some m' => Res.ofPanic (collectKeys H m' (H.order (m'.map (·.1))))

/-! ### Writes -/

/-- The filter of `write_time_points` (src/db.rs:181-183). -/
def keepPoint (start_ end_ : U64) (p : TimePoint) : Bool :=
  decide (p.ts.toNat ≥ start_.toNat) && decide (p.ts.toNat ≤ end_.toNat) && decide (p.ts ≠ 0#64)

/-- The inserts of `write_time_points` (src/db.rs:184-186): number of failures; a panic stops the loop. -/
def insertEach {σ : Type} (C : Comp σ) (c : Chunk σ) (ls : Labels) : List TimePoint → Res Nat × Chunk σ
  | [] => (.ok 0, c)
  | p :: ps =>
    match c.insert C ls p with
    | (.panic, c') => (.panic, c')
    | (.ok (), c') => insertEach C c' ls ps
    | (.err _, c') =>
      match insertEach C c' ls ps with
      | (.ok n, c'') => (.ok (n + 1), c'')
      | r => r

/-- `MonolithDb::write_time_points` (src/db.rs:176-194) on the current chunk. -/
def writeTimePoints {σ : Type} (C : Comp σ) (c : Chunk σ) (ls : Labels) (ps : List TimePoint) : Res Unit × Chunk σ :=
  match insertEach C c ls (ps.filter (keepPoint c.start_ c.end_)) with
  | (.ok 0, c') => (.ok (), c')
  | (.ok (_ + 1), c') => (.err .internal, c')
  | (.err e, c') => (.err e, c')
  | (.panic, c') => (.panic, c')

/-- `MonolithDb::write_time_point` (src/db.rs:196-200). -/
def writeTimePoint {σ : Type} (C : Comp σ) (c : Chunk σ) (ls : Labels) (p : TimePoint) : Res Unit × Chunk σ :=
  c.insert C ls p

/-! ### Swap -/

/-- The two locked fields of `MonolithDb` (src/db.rs:27-28). -/
structure DbState where
  current : View
  secondary : List View

/-- `swap` (src/db.rs:306-316): two critical sections, `secondary.push(current)` under the read lock of `current`, then the
replacement under its write lock. (Closing the old chunk has no effect a query can see.) -/
def swapProc (new : View) {α : Type} (k : Proc DbState α) : Proc DbState α :=
  .put (fun s : DbState => { s with secondary := s.secondary ++ [s.current] })
    (.put (fun s : DbState => { s with current := new }) k)

/-- Several swaps one after another: the swap thread (src/db.rs:97-100). -/
def swapsProc : List View → Proc DbState Unit
  | [] => .ret ()
  | v :: vs => swapProc v (swapsProc vs)

/-- `query` (src/db.rs:202-267) as its two critical sections. -/
def dbQueryProc (H : Hash) (q : Labels) (a b : U64) : Proc DbState (Res (List (Labels × List TimePoint))) :=
  .get (fun s : DbState => queryCurrent H s.current q a b) fun m =>
    match m with
    | none => .ret .panic
    | some m =>
      .get (fun s : DbState => querySecondary H q a b s.secondary.reverse m) fun r =>
        match r with
        | none => .ret .panic
        | some m' => .ret (Res.ofPanic (collectKeys H m' (H.order (m'.map (·.1)))))

/-! ### Timer -/

/-- The windows of the chunks created by a run (src/db.rs:56-63, 92-100, 269-273): the first one starts at `t0`, each tick `r`
opens a window starting at `r + 1`. Times are natural numbers (milliseconds; 64 bits suffice for 584 million years). -/
def windows (size t0 : Nat) (ticks : List Nat) : List (Nat × Nat) :=
  (t0, t0 + size) :: ticks.map fun r => (r + 1, r + 1 + size)

/-- The timer thread sleeps `size` before each tick (src/db.rs:92-95): every clock reading is at least `size` after the
previous one (the first at least `size` after `t0`). -/
def TimerRun (size t0 : Nat) : List Nat → Prop
  | [] => True
  | r :: rs => t0 + size ≤ r ∧ TimerRun size r rs

/-! ### Metadata -/

/-- `DbMetadata` (src/common/metadata.rs:5-8). -/
structure DbMeta where
  indexerType : Str
  storageType : Str
deriving DecidableEq, Repr

/-- The metadata file. JSON syntax is not modelled: text is given with its parse result. -/
inductive MetaFile where
  /-- no file, or `read_to_string` fails for another reason -/
  | unreadable
  | text (parsed : Option DbMeta)
deriving DecidableEq, Repr

/-- `read_or_create_metadata` (src/db.rs:107-124). -/
def readOrCreateMeta (f : MetaFile) (m : DbMeta) : Res Unit × MetaFile :=
  match f with
  | .text (some m0) => if m0.indexerType ≠ m.indexerType ∨ m0.storageType ≠ m.storageType then (.err .optionErr, f) else (.ok (), f)
  | .text none => (.err .serdeErr, f)
  | .unreadable => (.ok (), .text (some m))

/-- The type check of `MonolithDb::new` (src/db.rs:44-48) for storage type `s` and indexer type `i`. -/
def openCheck (f : MetaFile) (s i : Str) : Res Unit × MetaFile := readOrCreateMeta f ⟨s, i⟩

end Verif
