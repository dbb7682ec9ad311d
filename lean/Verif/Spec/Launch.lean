import Verif.Model.Launch
import Verif.Props.Options
import Verif.Props.Backends
/-! What a manual would say about the options. -/
namespace Verif

/-- The option has this value: as given, or the default. -/
def Cli.has (given : Option Str) (default : Str) (v : Str) : Prop := given = some v ∨ given = none ∧ v = default

/-- The number options are numbers: seconds and workers below 2^64, the port between 1024 and 65535. -/
structure Cli.Numbers (a : Cli) (secs workers port : Nat) : Prop where
  size : ∃ t, Cli.has a.chunkSize (ascii "12000".toList) t ∧ IsUnsignedNumeral t (2 ^ 64 - 1) secs
  workers : ∃ t, Cli.has a.workers (ascii "8".toList) t ∧ IsUnsignedNumeral t (2 ^ 64 - 1) workers
  port : ∃ t, Cli.has a.port (ascii "9001".toList) t ∧ IsUnsignedNumeral t 65535 port ∧ 1024 ≤ port

/-- TiKV is named as storage or indexer. -/
def Cli.wantsTikv (a : Cli) : Prop := a.storage = some (ascii "tikv".toList) ∨ a.indexer = some (ascii "tikv".toList)

/-- A storage or indexer is named that does not exist. -/
def Cli.UnknownName (a : Cli) : Prop := ∃ n, (a.storage = some n ∨ a.indexer = some n) ∧ n ≠ ascii "sled".toList ∧ n ≠ ascii "tikv".toList

/-- A configuration file that is needed can be read. -/
def Cli.ConfigOk (w : World) (a : Cli) : Prop := a.wantsTikv → ∀ f, a.tikvConfig = some f → w.files f ≠ none

/-- The directory was never used, or was used with these components. (The record has the two under each other's names, C44.) -/
def DirFits (m : MetaFile) (st ix : Backend) : Prop :=
  m = .unreadable ∨ m = .text (some { indexerType := st.storageType, storageType := ix.indexerType })

/-- The server that the options ask for. -/
structure Asked (w : World) (a : Cli) (r : Running) : Prop where
  storage : Cli.has a.storage (ascii "sled".toList) r.st.name
  indexer : Cli.has a.indexer (ascii "sled".toList) r.ix.name
  read : Cli.has a.readPath (ascii "/read".toList) r.read
  write : Cli.has a.writePath (ascii "/write".toList) r.write
  numbers : ∃ secs port : Nat, a.Numbers secs r.workers port ∧ r.port = port ∧ r.lo = w.now ∧ r.hi.toNat = (w.now.toNat + secs * 1000) % 2 ^ 64 ∧
    (w.checked = true → w.now.toNat + secs * 1000 % 2 ^ 64 < 2 ^ 64)
  /-- a cluster only if a file says so -/
  cluster : r.conn = some .cluster ↔ a.wantsTikv ∧ ∃ f, a.tikvConfig = some f ∧ w.files f = some false
  /-- otherwise, if TiKV is wanted, a map in memory -/
  dry : r.conn = some .dryRun ↔ a.wantsTikv ∧ ¬ ∃ f, a.tikvConfig = some f ∧ w.files f = some false
  config : a.ConfigOk w

end Verif
