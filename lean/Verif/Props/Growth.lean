import Verif.Lemmas.Bytes
import Verif.Props.ChunkDir
import Verif.Props.Bytes
/-! Property C100: what makes the database grow. -/
namespace Verif
open List

/-- The chunk directories, by name, with the contents of their trees. -/
def Host.disk (h : Host) : List (Str × SledStores) := h.db.slots.map fun s => (s.name, s.stores)
/-- The names only. -/
def Host.dirs (h : Host) : List Str := h.disk.map (·.1)

theorem insert_window {σ : Type} (C : Comp σ) (c : Chunk σ) (ls : Labels) (p : TimePoint) :
    (c.insert C ls p).2.start_ = c.start_ ∧ (c.insert C ls p).2.end_ = c.end_ := by
  have hb : (c.insertBody C ls p).2.start_ = c.start_ ∧ (c.insertBody C ls p).2.end_ = c.end_ := by
    unfold Chunk.insertBody
    rcases C.byLabels c.store ls with (_ | i) | e | _
    · simp only []
      split <;> exact ⟨rfl, rfl⟩
    · simp only []
      split <;> exact ⟨rfl, rfl⟩
    · exact ⟨rfl, rfl⟩
    · exact ⟨rfl, rfl⟩
  unfold Chunk.insert
  split
  · exact ⟨rfl, rfl⟩
  · split
    · unfold Chunk.seal
      split <;> exact hb
    · exact ⟨rfl, rfl⟩

theorem insertEach_window {σ : Type} (C : Comp σ) (c : Chunk σ) (ls : Labels) (ps : List TimePoint) :
    (insertEach C c ls ps).2.start_ = c.start_ ∧ (insertEach C c ls ps).2.end_ = c.end_ := by
  induction ps generalizing c with
  | nil => exact ⟨rfl, rfl⟩
  | cons p ps ih =>
    have h1 := insert_window C c ls p
    rw [insertEach]
    rcases hi : c.insert C ls p with ⟨r, c'⟩
    rw [hi] at h1
    have h2 := ih c'
    rcases r with x | e | _
    · exact ⟨h2.1.trans h1.1, h2.2.trans h1.2⟩
    · simp only []
      rcases hr : insertEach C c' ls ps with ⟨r', c''⟩
      rw [hr] at h2
      rcases r' with n | e | _ <;> exact ⟨h2.1.trans h1.1, h2.2.trans h1.2⟩
    · exact h1

theorem write_window {σ : Type} (C : Comp σ) (c : Chunk σ) (ls : Labels) (ps : List TimePoint) :
    (writeTimePoints C c ls ps).2.start_ = c.start_ ∧ (writeTimePoints C c ls ps).2.end_ = c.end_ := by
  have h := insertEach_window C c ls (ps.filter (keepPoint c.start_ c.end_))
  unfold writeTimePoints
  rcases hr : insertEach C c ls (ps.filter (keepPoint c.start_ c.end_)) with ⟨r, c'⟩
  rw [hr] at h
  rcases r with n | e | _
  · cases n <;> exact h
  · exact h
  · exact h

theorem serverWrite_window (B : BinSearch) (H : Hash) (m : List PSeries) (db : LiveDb) :
    (serverWrite (liveApi B H) db m).2.old = db.old ∧ (serverWrite (liveApi B H) db m).2.cur.start_ = db.cur.start_ ∧
    (serverWrite (liveApi B H) db m).2.cur.end_ = db.cur.end_ := by
  induction m generalizing db with
  | nil => exact ⟨rfl, rfl, rfl⟩
  | cons s m ih =>
    have hst : (liveApi B H).write db (ofSeries s).1 (ofSeries s).2 = ((writeTimePoints (sledComp B) db.cur (ofSeries s).1 (ofSeries s).2).1,
      { db with cur := (writeTimePoints (sledComp B) db.cur (ofSeries s).1 (ofSeries s).2).2 }) := rfl
    have h1 := write_window (sledComp B) db.cur (ofSeries s).1 (ofSeries s).2
    rw [serverWrite, hst]
    rcases hr : (writeTimePoints (sledComp B) db.cur (ofSeries s).1 (ofSeries s).2).1 with x | e | _
    · have h2 := ih { db with cur := (writeTimePoints (sledComp B) db.cur (ofSeries s).1 (ofSeries s).2).2 }
      exact ⟨h2.1, h2.2.1.trans h1.1, h2.2.2.trans h1.2⟩
    · exact ⟨rfl, h1⟩
    · exact ⟨rfl, h1⟩

/-- C100, reads are pure: a request of any bytes that does not go to the write path, in any state, changes nothing that is stored (and nothing in
memory). -/
theorem C100_partial_reads (B : BinSearch) (H : Hash) (F : Formats) (P : Paths) (base : Str) (size : U64) (h : Host) (r : Request) (hr : r.url ≠ P.write) :
    (h.stepNamed B H F P base size (.request r)).2.db = h.db := by
  have hp : (process (liveApi B H) F P h.db r).2 = h.db := by
    obtain ⟨url, rb⟩ := r
    unfold process
    rcases rb with _ | body
    · rfl
    have hr' : ¬ url = P.write := hr
    simp only []
    rcases F.decompress body with _ | content
    · rfl
    simp only []
    by_cases hu : url = P.read
    · rw [if_pos hu]
      split
      · rfl
      · split
        · rfl
        · split <;> rfl
    · rw [if_neg hu, if_neg hr']
  simp only [Host.stepNamed]
  split
  · rcases hq : process (liveApi B H) F P h.db r with ⟨_ | x, db'⟩ <;> rw [hq] at hp <;> exact hp
  · rfl

/-- C100, writes: no request, whatever its bytes, adds or removes a chunk directory, or changes what is stored in the older ones. -/
theorem C100_partial_writes (B : BinSearch) (H : Hash) (F : Formats) (P : Paths) (base : Str) (size : U64) (h : Host) (r : Request) :
    ∃ old last last', h.disk = old ++ [last] ∧ (h.stepNamed B H F P base size (.request r)).2.disk = old ++ [last'] ∧ last'.1 = last.1 := by
  have hp : (process (liveApi B H) F P h.db r).2.old = h.db.old ∧ (process (liveApi B H) F P h.db r).2.cur.start_ = h.db.cur.start_ ∧
      (process (liveApi B H) F P h.db r).2.cur.end_ = h.db.cur.end_ := by
    obtain ⟨url, rb⟩ := r
    unfold process
    rcases rb with _ | body
    · exact ⟨rfl, rfl, rfl⟩
    simp only []
    split
    · exact ⟨rfl, rfl, rfl⟩
    · rename_i bytes _
      split
      · split
        · exact ⟨rfl, rfl, rfl⟩
        · split
          · exact ⟨rfl, rfl, rfl⟩
          · split <;> exact ⟨rfl, rfl, rfl⟩
      · split
        · have hw := serverWrite_window B H (F.parseWrite bytes) h.db
          rcases hs : serverWrite (liveApi B H) h.db (F.parseWrite bytes) with ⟨o, db'⟩
          rw [hs] at hw
          rcases o with x | e | _ <;> exact hw
        · exact ⟨rfl, rfl, rfl⟩
  refine ⟨h.db.old.map fun s => (s.name, s.stores), (encodeChunkDir h.db.cur.start_ h.db.cur.end_, h.db.cur.store), ?_⟩
  simp only [Host.stepNamed]
  split
  · rcases hq : process (liveApi B H) F P h.db r with ⟨_ | x, db'⟩ <;> rw [hq] at hp <;>
      exact ⟨(encodeChunkDir db'.cur.start_ db'.cur.end_, db'.cur.store), by simp [Host.disk, LiveDb.slots], by
        obtain ⟨ho, -, -⟩ := hp
        simp only [] at ho
        simp [Host.disk, LiveDb.slots, ho], by
        obtain ⟨-, hs, he⟩ := hp
        simp only [] at hs he
        simp [hs, he]⟩
  · exact ⟨(encodeChunkDir h.db.cur.start_ h.db.cur.end_, h.db.cur.store), by simp [Host.disk, LiveDb.slots], by simp [Host.disk, LiveDb.slots], rfl⟩

/-- C100, the timer: every tick of a running server adds one directory without data, for the next window, and leaves the others as they are,
whether or not anything has been written - unless that directory exists already. -/
theorem C100_partial_tick (B : BinSearch) (H : Hash) (F : Formats) (P : Paths) (base : Str) (size : U64) (h : Host) (hup : h.up = true) (r : U64) :
    (h.stepNamed B H F P base size (.tick r)).2.disk =
      if encodeChunkDir (r + 1) (r + 1 + size) ∈ h.dirs then h.disk else h.disk ++ [(encodeChunkDir (r + 1) (r + 1 + size), noStores)] := by
  have ht : h.db.taken (r + 1) (r + 1 + size) = true ↔ encodeChunkDir (r + 1) (r + 1 + size) ∈ h.dirs := by
    unfold LiveDb.taken Host.dirs Host.disk
    simp [List.any_eq_true]
  simp only [Host.stepNamed, LiveDb.stepNamed, if_pos hup]
  by_cases hx : encodeChunkDir (r + 1) (r + 1 + size) ∈ h.dirs
  · rw [if_pos (ht.mpr hx), if_pos hx]; rfl
  · rw [if_neg (fun h => hx (ht.mp h)), if_neg hx]
    simp [LiveDb.step, Host.disk, LiveDb.slots, Chunk.new]

/-- C100, restarts: a restart of the process, running or not, leaves every directory as it is and adds one without data for the new chunk, or
nothing if it does not succeed. -/
theorem C100_partial_restart (B : BinSearch) (H : Hash) (F : Formats) (P : Paths) (base : Str) (size : U64) (h : Host) (order : List Slot → List Slot)
    (clock : Str → U64) (now : U64) (hord : (order h.db.slots).Perm h.db.slots) :
    (h.stepNamed B H F P base size (.restart order clock now)).2.disk.Perm
      (if (h.stepNamed B H F P base size (.restart order clock now)).2.up = true then h.disk ++ [(encodeChunkDir now (now + size), noStores)] else h.disk) := by
  have key : (h.stepNamed B H F P base size (.restart order clock now)).2 = ⟨false, h.db⟩ ∨
      ∃ cs, (h.stepNamed B H F P base size (.restart order clock now)).2 = ⟨true, ⟨order h.db.slots, Chunk.new noStores now (now + size), cs⟩⟩ := by
    simp only [Host.stepNamed, LiveDb.stepNamed, LiveDb.step]
    by_cases hx : h.db.taken now (now + size) = true
    · rw [if_pos hx]; exact Or.inl rfl
    · rw [if_neg hx]
      rcases readExistingChunks base clock (order h.db.slots) with _ | cs
      · exact Or.inl rfl
      · exact Or.inr ⟨cs, rfl⟩
  rcases key with e | ⟨cs, e⟩
  · rw [e]; exact List.Perm.refl _
  · rw [e, if_pos rfl]
    have e : (Host.mk true ⟨order h.db.slots, Chunk.new noStores now (now + size), cs⟩).disk =
        ((order h.db.slots).map fun s => (s.name, s.stores)) ++ [(encodeChunkDir now (now + size), noStores)] := by
      simp [Host.disk, LiveDb.slots, Chunk.new]
    rw [e]
    exact (hord.map _).append_right _

/-- The events that may add a directory. -/
def HostEvent.opens : HostEvent → Bool
  | .request _ => false
  | .tick _ => true
  | .restart _ _ _ => true

/-- C100, all together: after any history of requests (of any bytes), ticks and restarts, there are at most as many directories more as there were
ticks and restarts, and none has been removed. -/
theorem C100_partial_count (B : BinSearch) (H : Hash) (F : Formats) (P : Paths) (base : Str) (size : U64) (es : List HostEvent) (h : Host)
    (hord : ∀ order clock now, HostEvent.restart order clock now ∈ es → ∀ ss, (order ss).Perm ss) :
    (h.runNamed B H F P base size es).2.disk.length ≤ h.disk.length + es.countP HostEvent.opens ∧
    ∀ d ∈ h.dirs, d ∈ (h.runNamed B H F P base size es).2.dirs := by
  induction es generalizing h with
  | nil => exact ⟨by simp [Host.runNamed], fun d hd => hd⟩
  | cons e es ih =>
    obtain ⟨h1, h2⟩ := ih (h.stepNamed B H F P base size e).2 (fun o c n hm => hord o c n (List.mem_cons_of_mem _ hm))
    have hs : (h.stepNamed B H F P base size e).2.disk.length ≤ h.disk.length + (if e.opens then 1 else 0) ∧
        ∀ d ∈ h.dirs, d ∈ (h.stepNamed B H F P base size e).2.dirs := by
      rcases e with r | r | ⟨order, clock, now⟩
      · obtain ⟨old, l, l', e1, e2, e3⟩ := C100_partial_writes B H F P base size h r
        refine ⟨by rw [e1, e2]; simp, fun d hd => ?_⟩
        simp only [Host.dirs, e1, e2, List.map_append, List.map_cons, List.map_nil, e3] at hd ⊢
        exact hd
      · by_cases hu : h.up = true
        · have ht := C100_partial_tick B H F P base size h hu r
          refine ⟨?_, fun d hd => ?_⟩
          · rw [ht]; split <;> simp [HostEvent.opens]
          · simp only [Host.dirs]
            rw [ht]
            split
            · exact hd
            · simp only [List.map_append, List.mem_append]; exact Or.inl hd
        · have e0 : (h.stepNamed B H F P base size (.tick r)).2 = h := by simp only [Host.stepNamed, if_neg hu]
          rw [e0]
          exact ⟨by omega, fun d hd => hd⟩
      · have hr := C100_partial_restart B H F P base size h order clock now (hord order clock now (by simp) _)
        refine ⟨?_, fun d hd => ?_⟩
        · rw [hr.length_eq]; split <;> simp [HostEvent.opens]
        · simp only [Host.dirs]
          rw [(hr.map (·.1)).mem_iff]
          split
          · simp only [List.map_append, List.mem_append]; exact Or.inl hd
          · exact hd
    have hc : (e :: es).countP HostEvent.opens = es.countP HostEvent.opens + if e.opens then 1 else 0 := by
      rw [List.countP_cons]
    simp only [Host.runNamed]
    exact ⟨by omega, fun d hd => h2 d (hs.2 d hd)⟩

/-- What is on disk after some ticks of the timer that nobody uses. -/
theorem idle_disk (B : BinSearch) (H : Hash) (F : Formats) (P : Paths) (base : Str) (size t0 : U64) (rs : List U64) (hnew : (t0 :: rs.map (· + 1)).Nodup) :
    ((Host.fresh size t0).runNamed B H F P base size (rs.map .tick)).2.db.secondary.length = rs.length ∧
    ((Host.fresh size t0).runNamed B H F P base size (rs.map .tick)).2.up = true ∧
    ((Host.fresh size t0).runNamed B H F P base size (rs.map .tick)).2.disk = (t0 :: rs.map (· + 1)).map fun a => (encodeChunkDir a (a + size), noStores) := by
  have key : ∀ (rs T : List U64) (h : Host), h.up = true → h.disk = T.map (fun a => (encodeChunkDir a (a + size), noStores)) → (T ++ rs.map (· + 1)).Nodup →
      (h.runNamed B H F P base size (rs.map .tick)).2.db.secondary.length = h.db.secondary.length + rs.length ∧
      (h.runNamed B H F P base size (rs.map .tick)).2.up = true ∧
      (h.runNamed B H F P base size (rs.map .tick)).2.disk = (T ++ rs.map (· + 1)).map fun a => (encodeChunkDir a (a + size), noStores) := by
    intro rs
    induction rs with
    | nil => intro T h hu hd _; exact ⟨rfl, hu, by simpa [Host.runNamed] using hd⟩
    | cons r rs ih =>
      intro T h hu hd hn
      have h1 := C100_partial_tick B H F P base size h hu r
      have hni : encodeChunkDir (r + 1) (r + 1 + size) ∉ h.dirs := by
        unfold Host.dirs
        rw [hd, List.map_map, List.mem_map]
        rintro ⟨a, ha, e⟩
        obtain ⟨rfl, -⟩ := C10_injective _ _ _ _ e
        rw [List.nodup_append] at hn
        exact hn.2.2 _ ha _ (by simp) rfl
      rw [if_neg hni] at h1
      have hu' : (h.stepNamed B H F P base size (.tick r)).2.up = true := by
        simp only [Host.stepNamed, LiveDb.stepNamed, if_pos hu]
        split
        · rfl
        · rename_i hx
          split at hx <;> simp [LiveDb.step] at hx
      have hs' : (h.stepNamed B H F P base size (.tick r)).2.db.secondary.length = h.db.secondary.length + 1 := by
        have ht : ¬ h.db.taken (r + 1) (r + 1 + size) = true := fun hx => hni (by
          simp only [LiveDb.taken, List.any_eq_true] at hx
          obtain ⟨x, hx, e⟩ := hx
          simp only [Host.dirs, Host.disk, List.map_map, List.mem_map]
          exact ⟨x, hx, by simpa using e⟩)
        simp only [Host.stepNamed, LiveDb.stepNamed, if_pos hu]
        rw [if_neg ht]
        simp [LiveDb.step]
      have := ih (T ++ [r + 1]) _ hu' (by rw [h1, hd, List.map_append]; rfl) (by simpa using hn)
      rw [hs'] at this
      simp only [List.append_assoc, List.singleton_append] at this
      refine ⟨?_, this.2⟩
      simp only [List.map_cons, Host.runNamed, List.length_cons]
      rw [this.1]; omega
  have h0 := key rs [t0] (Host.fresh size t0) rfl (by simp [Host.disk, Host.fresh, LiveDb.fresh, LiveDb.slots, Chunk.new]) (by simpa using hnew)
  exact ⟨by rw [h0.1]; simp [Host.fresh, LiveDb.fresh], h0.2⟩

/-- C100 is false: a server that nobody ever uses has, after any number of ticks of its timer (each at least the length of a chunk after the one
before), one more chunk directory than there were ticks, all without data; and all of them are kept open in memory, where every query goes through
them (src/db.rs:202-267). -/
theorem C100_violated (B : BinSearch) (H : Hash) (F : Formats) (P : Paths) (base : Str) (size t0 : U64) (rs : List U64)
    (hsize : 0 < size.toNat) (hspaced : (t0 :: rs).IsChain fun a b => a.toNat + size.toNat ≤ b.toNat) (hlast : ∀ r ∈ rs, r.toNat + 1 < 2 ^ 64) :
    ((Host.fresh size t0).runNamed B H F P base size (rs.map .tick)).2.disk.length = rs.length + 1 ∧
    ((Host.fresh size t0).runNamed B H F P base size (rs.map .tick)).2.dirs.Nodup ∧
    (∀ e ∈ ((Host.fresh size t0).runNamed B H F P base size (rs.map .tick)).2.disk, e.2 = noStores) ∧
    ((Host.fresh size t0).runNamed B H F P base size (rs.map .tick)).2.db.secondary.length = rs.length := by
  have hpw : (t0 :: rs).Pairwise fun a b => a.toNat < b.toNat := by
    rw [← List.isChain_iff_pairwise]
    exact hspaced.imp fun a b h => by omega
  have hnew : (t0 :: rs.map (· + 1)).Nodup := by
    rw [List.pairwise_cons] at hpw
    have hs : ∀ r ∈ rs, (r + 1).toNat = r.toNat + 1 := fun r hr => by
      have := hlast r hr
      simp [BitVec.toNat_add]; omega
    rw [List.nodup_cons]
    refine ⟨fun hm => ?_, ?_⟩
    · obtain ⟨r, hr, e⟩ := List.mem_map.mp hm
      have h1 := hpw.1 r hr
      have h2 := hs r hr
      rw [e] at h2; omega
    · rw [List.Nodup, List.pairwise_map]
      refine hpw.2.imp_of_mem fun {a b} ha hb h e => ?_
      have h1 := hs a ha
      have h2 := hs b hb
      rw [e] at h1; omega
  obtain ⟨hsec, -, h⟩ := idle_disk B H F P base size t0 rs hnew
  refine ⟨by rw [h]; simp, ?_, by rw [h]; intro e he; obtain ⟨a, -, rfl⟩ := List.mem_map.mp he; rfl, hsec⟩
  unfold Host.dirs
  rw [h, List.map_map]
  exact List.Nodup.map (fun a b e => (C10_injective _ _ _ _ e).1) hnew

/-! ### The hypotheses of the theorems hold -/

-- every number of ticks is possible
example (n : Nat) (hn : n < 2 ^ 50) : ∃ rs : List U64, rs.length = n ∧ (1000#64 :: rs).IsChain (fun a b => a.toNat + (1000#64).toNat ≤ b.toNat) ∧ ∀ r ∈ rs, r.toNat + 1 < 2 ^ 64 := by
  have toN : ∀ b : Nat, b < 2 ^ 64 → (BitVec.ofNat 64 b).toNat = b := fun b hb => by rw [BitVec.toNat_ofNat, Nat.mod_eq_of_lt hb]
  have h1000 : (1000#64).toNat = 1000 := rfl
  rw [h1000]
  have key : ∀ (n a : Nat), a + 1000 * n + 1 < 2 ^ 64 → ∃ rs : List U64, rs.length = n ∧
      ((BitVec.ofNat 64 a) :: rs).IsChain (fun a b => a.toNat + 1000 ≤ b.toNat) ∧ ∀ r ∈ rs, r.toNat + 1 < 2 ^ 64 := by
    intro n
    induction n with
    | zero => intro a _; exact ⟨[], rfl, by simp, by simp⟩
    | succ n ih =>
      intro a ha
      obtain ⟨b, hb⟩ : ∃ b, b = a + 1000 := ⟨_, rfl⟩
      obtain ⟨rs, h1, h2, h3⟩ := ih b (by omega)
      have e1 := toN a (by omega)
      have e2 := toN b (by omega)
      refine ⟨BitVec.ofNat 64 b :: rs, by simp [h1], ?_, ?_⟩
      · rw [List.isChain_cons_cons]
        exact ⟨by rw [e1, e2, hb], h2⟩
      · intro r hr
        rcases List.mem_cons.mp hr with rfl | hr
        · rw [e2]; omega
        · exact h3 r hr
  obtain ⟨a, ha⟩ : ∃ a, a = 1000 := ⟨_, rfl⟩
  have := key n a (by omega)
  rw [ha] at this
  exact this

example : ((Host.fresh 1000#64 1000#64).runNamed stdBinSearch idealHash (pbFormats exSnappy exRt) ⟨[114#8], [119#8]⟩ [100#8] 1000#64
    ([1999#64, 3000#64, 4001#64].map .tick)).2.disk.length = 4 := by decide +kernel

-- a history with everything in it: two directories at the end, as many as allowed less the start that fails
example : ((Host.fresh 1000#64 1000#64).runNamed stdBinSearch idealHash (pbFormats exSnappy exRt) ⟨[114#8], [119#8]⟩ [100#8] 1000#64
    [.restart id (fun _ => 0#64) 5000#64, .restart List.reverse (fun _ => 0#64) 5000#64, .tick 1#64]).2.dirs.length = 2 := by decide +kernel

end Verif
