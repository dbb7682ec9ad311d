import Verif.Model.Sessions
import Verif.Model.PowerLoss
/-! The server process (src/bin/monolith-server.rs, src/db.rs, src/server.rs) started and ended any number of times on one directory, for the sled backend, when
the ends are losses of power (or crashes of the operating system), at the granularity of single store operations. What sled has not written to the disk can be
gone. The storage is never flushed by the program (src/storage/sled_storage.rs:61-78), the index only after each reverse entry of a new series
(src/indexer/sled_indexer.rs:143); sled flushes in the background from time to time. The creation of a chunk directory (src/chunk/chunk.rs:46-55) is not made
durable by the program either. -/
namespace Verif

/-- What can be found later of the directory of chunk number `i` of those made by a life that was started on the directories `slots`, if the last turn at which everything
had been written to the disk was turn `f` (0: never): each entry of each tree as it was at turn `f` or at a later one. As in `Volatile.Leaves`, sled promises more:
one moment for all entries of a tree. Here the flushes of the index are not used, which allows more. The configuration file in the directory can be in any state. -/
def Session.Wears (B : BinSearch) (H : Hash) (F : Formats) (P : Paths) (base : Str) (slots : List Slot) (s : Session) (f i : Nat) (x : Slot) : Prop :=
  ∃ A c y, readExistingChunks base s.clock (s.order slots) = some A ∧ s.at B H F P base slots s.sched = some c ∧ (c.dirs A.length)[i]? = some y ∧ x.name = y.name ∧
    ∀ t k, ∃ (m : Nat) (c' : SrvConf) (z : Slot), f ≤ m ∧ m ≤ s.sched.length ∧ s.at B H F P base slots (s.sched.take m) = some c' ∧
      (c'.dirs A.length)[i]? = some z ∧ x.stores.tree t k = z.stores.tree t k

/-- A directory that the life was making when it ended, or had made but not yet used: for the first chunk, or for the next one of the timer. -/
def Session.Begins (B : BinSearch) (H : Hash) (F : Formats) (P : Paths) (base : Str) (slots : List Slot) (s : Session) (x : Slot) : Prop :=
  x.stores = noStores ∧
  ((∃ A, readExistingChunks base s.clock (s.order slots) = some A ∧ s.born < 3 ∧ ∃ y ∈ newDir s.now (s.now + s.size) s.born, x.name = y.name) ∨
    ∃ c, s.at B H F P base slots s.sched = some c ∧ ∃ y ∈ c.nextDir s.cut, x.name = y.name)

/-- `disks n` is what life number `n` finds: nothing at first; later, directories that earlier lives made, as the ends of these lives left them. `f n` is the last turn
of life `n` at which everything had been written to the disk. Directories can be missing; those of older lives, too, can have lost what was not written. -/
structure Survivors (B : BinSearch) (H : Hash) (F : Formats) (P : Paths) (base : Str) (ss : List Session) (f : Nat → Nat) (disks : Nat → List Slot) : Prop where
  first : disks 0 = []
  made : ∀ n, n < ss.length → ∀ x ∈ disks (n + 1), ∃ n' s, n' ≤ n ∧ ss[n']? = some s ∧
    ((∃ i, s.Wears B H F P base (disks n') (f n') i x) ∨ s.Begins B H F P base (disks n') x)

/-- The directories that life `n` had at turn `f n` are found by every later life. -/
def Lasting (B : BinSearch) (H : Hash) (F : Formats) (P : Paths) (base : Str) (ss : List Session) (f : Nat → Nat) (disks : Nat → List Slot) : Prop :=
  ∀ (n : Nat) (s : Session) (A : List SChunk) (c : SrvConf) (i : Nat), ss[n]? = some s → readExistingChunks base s.clock (s.order (disks n)) = some A →
    s.at B H F P base (disks n) (s.sched.take (f n)) = some c → i < (c.dirs A.length).length →
    ∀ n2, n < n2 → n2 < ss.length → ∃ x ∈ disks n2, s.Wears B H F P base (disks n) (f n) i x

/-- The server of life number `n`, which finds `disks n`, after the turns `sched`. -/
def serverWith (B : BinSearch) (H : Hash) (F : Formats) (P : Paths) (base : Str) (ss : List Session) (disks : Nat → List Slot) (n : Nat) (sched : List Nat) : Option SrvConf :=
  (ss[n]?).bind fun s => s.at B H F P base (disks n) sched

/-- The server of life number `n` at its end. -/
def endWith (B : BinSearch) (H : Hash) (F : Formats) (P : Paths) (base : Str) (ss : List Session) (disks : Nat → List Slot) (n : Nat) : Option SrvConf :=
  (ss[n]?).bind fun s => s.at B H F P base (disks n) s.sched

end Verif
