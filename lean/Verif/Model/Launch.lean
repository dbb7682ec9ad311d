import Verif.Model.Backends
import Verif.Model.Options
import Verif.Model.Misc
import Verif.Model.Server
/-! The start of the program: `main` (src/bin/monolith-server.rs:20-146) with the option readers (src/common/option.rs), the TiKV configuration
(src/backend/tikv.rs:82-128) and the first steps of `MonolithDb::new` and `serve`. -/
namespace Verif

/-- The options given on the command line, as clap hands them over (src/bin/monolith-server.rs:26-60). How clap splits the command line is not
modelled. `--file_dir` is the directory the world below is about. -/
structure Cli where
  storage : Option Str
  indexer : Option Str
  chunkSize : Option Str
  port : Option Str
  writePath : Option Str
  readPath : Option Str
  workers : Option Str
  tikvConfig : Option Str

/-- Default values (src/lib.rs:41-45, 53; src/bin/monolith-server.rs:29-59): "sled". -/
def defaultBackend : Str := Backend.sled.name
/-- `DEFAULT_CHUNK_SIZE` (src/lib.rs:41): "12000". -/
def defaultChunkSize : Str := [49#8, 50#8, 48#8, 48#8, 48#8]
/-- `DEFAULT_PORT` (src/lib.rs:42): "9001". -/
def defaultPort : Str := [57#8, 48#8, 48#8, 49#8]
/-- `DEFAULT_READ_PATH` (src/lib.rs:43): "/read". -/
def defaultRead : Str := [47#8, 114#8, 101#8, 97#8, 100#8]
/-- `DEFAULT_WRITE_PATH` (src/lib.rs:44): "/write". -/
def defaultWrite : Str := [47#8, 119#8, 114#8, 105#8, 116#8, 101#8]
/-- `DEFAULT_WORKER_NUM` (src/lib.rs:45): "8". -/
def defaultWorkers : Str := [56#8]

/-- `get_type_name` of the storages (src/storage/sled_storage.rs:100-102, src/storage/tikv_storage.rs:87-89): "SledStorage", "TiKvStorage". -/
def Backend.storageType : Backend → Str
  | .sled => [83#8, 108#8, 101#8, 100#8, 83#8, 116#8, 111#8, 114#8, 97#8, 103#8, 101#8]
  | .tikv => [84#8, 105#8, 75#8, 118#8, 83#8, 116#8, 111#8, 114#8, 97#8, 103#8, 101#8]
/-- `get_type_name` of the indexers (src/indexer/sled_indexer.rs:64-66, src/indexer/tikv_indexer.rs:169-171): "SledIndexer", "TiKvIndexer". -/
def Backend.indexerType : Backend → Str
  | .sled => [83#8, 108#8, 101#8, 100#8, 73#8, 110#8, 100#8, 101#8, 120#8, 101#8, 114#8]
  | .tikv => [84#8, 105#8, 75#8, 118#8, 73#8, 110#8, 100#8, 101#8, 120#8, 101#8, 114#8]

/-- What the program finds: the TiKV configuration files, by path (`none`: cannot be read or is not YAML of the right form, else its `dry_run` entry,
default `false`; src/backend/tikv.rs:114-128); the metadata file of the directory; whether the existing chunks can be read (C63, C64 say when) and
the directory of a new one can be written; whether a client of the cluster can be made (`RawClient::new`); which ports are free; the clock;
whether the build checks overflows. -/
structure World where
  files : Str → Option Bool
  metaFile : MetaFile
  existing : Bool
  writable : Bool
  reach : Bool
  free : Int → Bool
  now : U64
  checked : Bool

/-- A server that has begun to serve. -/
structure Running where
  st : Backend
  ix : Backend
  conn : Option Conn
  port : Int
  read : Str
  write : Str
  workers : Nat
  lo : U64
  hi : U64
deriving DecidableEq

/-- What becomes of the process: it ends with an exit code (a panic of the main thread is 101), or serves. -/
inductive Fate where
  | ended (code : Nat)
  | serving (r : Running)
deriving DecidableEq

/-- The end of a launch: the outcome, the metadata file, and whether a directory for a new chunk was made. -/
structure Launched where
  out : Fate
  metaFile : MetaFile
  made : Bool
deriving DecidableEq

/-- `MonolithDb::new` (src/db.rs:39-85) and the start of `serve` (src/server.rs:47-54), with both `unwrap`s (src/bin/monolith-server.rs:111,
src/server.rs:49): the type check; the existing chunks; the window; the directory of the new chunk; its components, which need a client; the port.
(`ThreadPoolBuilder::build` is taken to succeed.) -/
def open_ (w : World) (st ix : Backend) (conn : Option Conn) (port : Int) (workers : Nat) (read write size : Str) : Launched :=
  match openCheck w.metaFile st.storageType ix.indexerType with
  | (.ok (), m) =>
    if w.existing then
      match startWith w.checked size w.now with
      | .runs lo hi =>
        if w.writable then
          if conn = some .cluster ∧ w.reach = false then ⟨.ended 101, m, true⟩
          else if w.free port then ⟨.serving ⟨st, ix, conn, port, read, write, workers, lo, hi⟩, m, true⟩
          else ⟨.ended 101, m, true⟩
        else ⟨.ended 101, m, false⟩
      | _ => ⟨.ended 101, m, false⟩
    else ⟨.ended 101, m, false⟩
  | (_, m) => ⟨.ended 101, m, false⟩

/-- `main` (src/bin/monolith-server.rs:62-145): the database options, the server options, the TiKV configuration, the choice of components. -/
def launch (w : World) (a : Cli) : Launched :=
  let storage := a.storage.getD defaultBackend
  let indexer := a.indexer.getD defaultBackend
  let size := a.chunkSize.getD defaultChunkSize
  match chunkSizeSecs size with
  | none => ⟨.ended 101, w.metaFile, false⟩
  | some _ =>
    match serverConfig (a.workers.getD defaultWorkers) (a.port.getD defaultPort) with
    | .parseErr => ⟨.ended 101, w.metaFile, false⟩
    | .optionErr => ⟨.ended 101, w.metaFile, false⟩
    | .ok port workers =>
      let needs : Bool := decide (indexer = Backend.tikv.name ∨ storage = Backend.tikv.name)
      let config : Option (Option Bool) := a.tikvConfig.map w.files
      if needs = true ∧ config = some none then ⟨.ended 101, w.metaFile, false⟩
      else
        match mainChoice storage indexer with
        | none => ⟨.ended 1, w.metaFile, false⟩
        | some (st, ix) =>
          open_ w st ix (mainConn (config.bind id) storage indexer) port workers (a.readPath.getD defaultRead) (a.writePath.getD defaultWrite) size

end Verif
