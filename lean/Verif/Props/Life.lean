import Verif.Lemmas.Life
/-! Properties C63-C65: crashes and restarts of a database. -/
namespace Verif
open List

/-! ### C63 -/

/-- Opening the database succeeds, whatever the clock shows. -/
def Opens (base : Str) (size : U64) (m : DbMeta) (d : Disk) : Prop :=
  ∀ clock now, ∃ db, ((newDbProc base size m clock now).run d).1 = .ok db

/-- Opening the database fails and changes nothing, whatever the clock shows and whatever the options are. -/
def NeverOpens (base : Str) (d : Disk) : Prop :=
  ∀ size m clock now, ∃ e, (newDbProc base size m clock now).run d = (.err e, d)

/-- A database directory all of whose chunk directories are complete. -/
structure Intact (m : DbMeta) (d : Disk) : Prop where
  record : d.record = .text (some m)
  slots : ∀ s ∈ d.slots, s.config = .complete ∧ ∃ lo hi, s.name = encodeChunkDir lo hi

/-- Reading succeeds if all directories are complete, and fails if one with the name of a window is not. -/
theorem readChunks_complete {base : Str} (hb : ∀ b ∈ base, isCont b = false) (clock : Str → U64) {ss : List Slot}
    (h : ∀ s ∈ ss, s.config = .complete ∧ ∃ lo hi, s.name = encodeChunkDir lo hi) : ∃ cs, readChunks base clock ss = some cs := by
  induction ss with
  | nil => exact ⟨[], rfl⟩
  | cons s ss ih =>
    obtain ⟨cs, hcs⟩ := ih fun x hx => h x (by simp [hx])
    obtain ⟨h1, lo, hi, h2⟩ := h s (by simp)
    have := C11_partial base hb lo hi (clock (encodeChunkDir lo hi))
    unfold readChunks Slot.reopen
    rw [h1, h2]
    simp only [decide_true]
    rw [this]
    simp only [hcs, Option.map_some]
    exact ⟨_, rfl⟩

theorem readChunks_incomplete {base : Str} (hb : ∀ b ∈ base, isCont b = false) (clock : Str → U64) {ss : List Slot} {s : Slot} (hs : s ∈ ss)
    (hc : s.config ≠ .complete) {lo hi : U64} (hn : s.name = encodeChunkDir lo hi) : readChunks base clock ss = none := by
  have hfail : s.reopen base clock = none := by
    have h1 := C11_partial base hb lo hi (clock (encodeChunkDir lo hi))
    unfold Slot.reopen
    rw [hn, decide_eq_false hc]
    unfold readEntry at h1 ⊢
    simp only [] at h1 ⊢
    rcases hd : dirNameOf (base ++ 47#8 :: encodeChunkDir lo hi) with _ | d
    · rfl
    · rw [hd] at h1
      simp only [] at h1 ⊢
      rcases hw : decodeChunkDir d with _ | w
      · rw [hw] at h1; simp at h1
      · rfl
  induction ss with
  | nil => simp at hs
  | cons x ss ih =>
    unfold readChunks
    rcases List.mem_cons.mp hs with rfl | hs
    · rw [hfail]
    · rw [ih hs]
      rcases x.reopen base clock with _ | _ | c <;> rfl

theorem Intact.opens {base : Str} (hb : ∀ b ∈ base, isCont b = false) {m : DbMeta} {d : Disk} (h : Intact m d) (size : U64) : Opens base size m d := by
  intro clock now
  obtain ⟨cs, hcs⟩ := readChunks_complete hb clock h.slots
  have hr : readOrCreateMeta (.text (some m)) m = (.ok (), .text (some m)) := by simp [readOrCreateMeta]
  unfold newDbProc recordProc
  simp only [Proc.get, Proc.run, id, h.record, hr, readExistingChunks, hcs, Option.map_some, chunkDirProc, Proc.put]
  exact ⟨_, rfl⟩

/-- A directory with the name of a window but without a complete `metadata.json` makes every attempt to open fail. -/
theorem incomplete_never {base : Str} (hb : ∀ b ∈ base, isCont b = false) {d : Disk} {m0 : DbMeta} (hr : d.record = .text (some m0)) {s : Slot}
    (hs : s ∈ d.slots) (hc : s.config ≠ .complete) {lo hi : U64} (hn : s.name = encodeChunkDir lo hi) : NeverOpens base d := by
  intro size m clock now
  have hrc := readChunks_incomplete hb clock hs hc hn
  unfold newDbProc recordProc
  simp only [Proc.get, Proc.run, id, hr]
  by_cases hm : m0.indexerType ≠ m.indexerType ∨ m0.storageType ≠ m.storageType
  · have : readOrCreateMeta (.text (some m0)) m = (.err .optionErr, .text (some m0)) := by unfold readOrCreateMeta; exact if_pos hm
    rw [this]
    exact ⟨_, rfl⟩
  · have : readOrCreateMeta (.text (some m0)) m = (.ok (), .text (some m0)) := by unfold readOrCreateMeta; exact if_neg hm
    rw [this]
    refine ⟨.notFound, ?_⟩
    simp only [readExistingChunks, hrc, Option.map_none, Proc.run, id]

theorem setConfig_other {name : Str} {c : ConfigFile} {ss : List Slot} (h : ∀ s ∈ ss, s.name ≠ name) : setConfig name c ss = ss := by
  unfold setConfig
  conv_rhs => rw [← List.map_id ss]
  exact List.map_congr_left fun s hs => by rw [if_neg (h s hs)]; rfl

theorem setConfig_append (name : Str) (c : ConfigFile) (ss tt : List Slot) : setConfig name c (ss ++ tt) = setConfig name c ss ++ setConfig name c tt := by
  unfold setConfig; rw [List.map_append]

/-- The directory after `n` steps of the creation of a chunk directory. -/
theorem chunkDir_upTo {α : Type} {name : Str} {d : Disk} (hf : ∀ s ∈ d.slots, s.name ≠ name) (k : α) (n : Nat) :
    (chunkDirProc name (.ret k)).upTo n d =
      match n with
      | 0 => d
      | 1 => { d with slots := d.slots ++ [⟨name, .absent, noStores⟩] }
      | 2 => { d with slots := d.slots ++ [⟨name, .unfinished, noStores⟩] }
      | _ => { d with slots := d.slots ++ [⟨name, .complete, noStores⟩] } := by
  match n with
  | 0 => rfl
  | 1 => rfl
  | 2 =>
    simp only [chunkDirProc, Proc.put, Proc.upTo, setConfig_append, setConfig_other hf]
    simp [setConfig]
  | n + 3 =>
    simp only [chunkDirProc, Proc.put, Proc.upTo, setConfig_append, setConfig_other hf]
    cases n <;> simp [setConfig, Proc.upTo]

/-- The name of the directory a swap creates is new. -/
def FreshWindow (d : Disk) (size start_ : U64) : Prop := ∀ s ∈ d.slots, s.name ≠ encodeChunkDir start_ (start_ + size)

/-- C63 fails: if the process dies during a swap after the directory of the new chunk was created and before its `metadata.json` is
written completely, the database can never be opened again, and the attempts do not change that. -/
theorem C63_violated {base : Str} (hb : ∀ b ∈ base, isCont b = false) {m : DbMeta} {d : Disk} (h : Intact m d) (size start_ : U64)
    (hf : FreshWindow d size start_) (n : Nat) (hn : n = 1 ∨ n = 2) : NeverOpens base ((swapDiskProc size start_).upTo n d) := by
  unfold swapDiskProc
  rw [chunkDir_upTo hf]
  rcases hn with rfl | rfl
  · exact incomplete_never hb h.record (s := ⟨encodeChunkDir start_ (start_ + size), .absent, noStores⟩)
      (List.mem_append_right _ (List.mem_singleton_self _)) (by simp) rfl
  · exact incomplete_never hb h.record (s := ⟨encodeChunkDir start_ (start_ + size), .unfinished, noStores⟩)
      (List.mem_append_right _ (List.mem_singleton_self _)) (by simp) rfl

/-- What holds of C63 for swaps: a crash at any other point leaves a database that opens, so that it opens exactly if the crash is
not between the first and the third step. -/
theorem C63_swap_partial {base : Str} (hb : ∀ b ∈ base, isCont b = false) {m : DbMeta} {d : Disk} (h : Intact m d) (size start_ size' : U64)
    (hf : FreshWindow d size start_) (n : Nat) : Opens base size' m ((swapDiskProc size start_).upTo n d) ↔ n = 0 ∨ 3 ≤ n := by
  constructor
  · intro ho
    by_contra hn
    obtain ⟨e, he⟩ := C63_violated hb h size start_ hf n (by omega) size' m (fun _ => 0#64) 0#64
    obtain ⟨db, hdb⟩ := ho (fun _ => 0#64) 0#64
    rw [he] at hdb
    simp at hdb
  · intro hn
    unfold swapDiskProc
    rw [chunkDir_upTo hf]
    match n, hn with
    | 0, _ => exact h.opens hb size'
    | n + 3, _ =>
      refine Intact.opens (d := { d with slots := d.slots ++ [⟨encodeChunkDir start_ (start_ + size), .complete, noStores⟩] }) hb ⟨h.record, ?_⟩ size'
      intro s hs
      rcases List.mem_append.mp hs with hs | hs
      · exact h.slots s hs
      · simp only [List.mem_singleton] at hs; subst hs; exact ⟨rfl, _, _, rfl⟩

/-- The effects of starting on an intact directory: two reads, then the new chunk directory. -/
theorem newDb_upTo {base : Str} (hb : ∀ b ∈ base, isCont b = false) {m : DbMeta} {d : Disk} (h : Intact m d) (size : U64) (clock : Str → U64) (now : U64)
    (n : Nat) : (newDbProc base size m clock now).upTo n d = (swapDiskProc size now).upTo (n - 2) d := by
  obtain ⟨cs, hcs⟩ := readChunks_complete hb clock h.slots
  have hr : readOrCreateMeta (.text (some m)) m = (.ok (), .text (some m)) := by simp [readOrCreateMeta]
  match n with
  | 0 => rfl
  | 1 => simp [newDbProc, recordProc, Proc.get, Proc.upTo]
  | n + 2 =>
    simp only [newDbProc, recordProc, Proc.get, Proc.upTo, id, h.record, hr, readExistingChunks, hcs, Option.map_some, swapDiskProc, chunkDirProc, Proc.put,
      Nat.add_sub_cancel]
    match n with
    | 0 => rfl
    | 1 => rfl
    | 2 => rfl
    | n + 3 => simp only [Proc.upTo]; cases n <;> rfl

/-- C63 for starting on an intact directory: it opens again after a crash after `n` steps exactly if `n` is not 3 or 4. -/
theorem C63_start_partial {base : Str} (hb : ∀ b ∈ base, isCont b = false) {m : DbMeta} {d : Disk} (h : Intact m d) (size size' : U64) (clock : Str → U64)
    (now : U64) (hf : FreshWindow d size now) (n : Nat) : Opens base size' m ((newDbProc base size m clock now).upTo n d) ↔ n ≠ 3 ∧ n ≠ 4 := by
  rw [newDb_upTo hb h, C63_swap_partial hb h size now size' hf]
  omega

/-- C63 fails for the very first start too: after a crash between the creation and the writing of the database's record nothing can
be opened, for ever. -/
theorem C63_violated_first (base : Str) (size : U64) (m : DbMeta) (clock : Str → U64) (now : U64) (slots : List Slot) :
    NeverOpens base ((newDbProc base size m clock now).upTo 2 ⟨.unreadable, slots⟩) := by
  intro size' m' clock' now'
  exact ⟨.serdeErr, by simp [newDbProc, recordProc, Proc.get, Proc.put, Proc.upTo, Proc.run, readOrCreateMeta]⟩

/-- The effects of the first start: the record is looked for, created, written; then as on an intact directory. -/
theorem firstStart_upTo {base : Str} (hb : ∀ b ∈ base, isCont b = false) {m : DbMeta} {slots : List Slot}
    (h : ∀ s ∈ slots, s.config = .complete ∧ ∃ lo hi, s.name = encodeChunkDir lo hi) (size : U64) (clock : Str → U64) (now : U64) (n : Nat) :
    (newDbProc base size m clock now).upTo n ⟨.unreadable, slots⟩ =
      match n with
      | 0 => ⟨.unreadable, slots⟩
      | 1 => ⟨.unreadable, slots⟩
      | 2 => ⟨.text none, slots⟩
      | n + 3 => (swapDiskProc size now).upTo (n - 1) ⟨.text (some m), slots⟩ := by
  obtain ⟨cs, hcs⟩ := readChunks_complete hb clock h
  match n with
  | 0 => rfl
  | 1 => rfl
  | 2 => rfl
  | 3 => rfl
  | n + 4 =>
    simp only [newDbProc, recordProc, Proc.get, Proc.put, Proc.upTo, id, readExistingChunks, hcs, Option.map_some, swapDiskProc, chunkDirProc,
      Nat.add_sub_cancel, show n + 1 + 3 = n + 4 from rfl, show n + 1 - 1 = n from rfl]
    match n with
    | 0 => rfl
    | 1 => rfl
    | 2 => rfl
    | n + 3 => simp only [Proc.upTo]; cases n <;> rfl

/-- C63 for the first start in a directory (which may contain chunk directories of an older version without a record): it opens again
after a crash after `n` steps exactly if the crash is not between creation and writing of the record, nor between creation of the
chunk directory and the end of the writing of its `metadata.json`. -/
theorem C63_first_partial {base : Str} (hb : ∀ b ∈ base, isCont b = false) {m : DbMeta} {slots : List Slot}
    (h : ∀ s ∈ slots, s.config = .complete ∧ ∃ lo hi, s.name = encodeChunkDir lo hi) (size size' : U64) (clock : Str → U64) (now : U64)
    (hf : ∀ s ∈ slots, s.name ≠ encodeChunkDir now (now + size)) (n : Nat) :
    Opens base size' m ((newDbProc base size m clock now).upTo n ⟨.unreadable, slots⟩) ↔ n ≠ 2 ∧ n ≠ 5 ∧ n ≠ 6 := by
  have hfresh : Opens base size' m ⟨.unreadable, slots⟩ := by
    intro clock' now'
    obtain ⟨cs, hcs⟩ := readChunks_complete hb clock' h
    refine ⟨⟨slots, Chunk.new noStores now' (now' + size'), stableSort (fun a b => decide (a.start_.toNat ≤ b.start_.toNat)) cs⟩, ?_⟩
    simp [newDbProc, recordProc, Proc.get, Proc.put, Proc.run, readExistingChunks, hcs, chunkDirProc]
  rw [firstStart_upTo hb h]
  match n with
  | 0 => exact ⟨fun _ => by omega, fun _ => hfresh⟩
  | 1 => exact ⟨fun _ => by omega, fun _ => hfresh⟩
  | 2 =>
    refine ⟨fun ho => ?_, fun hn => absurd rfl hn.1⟩
    obtain ⟨db, hdb⟩ := ho (fun _ => 0#64) 0#64
    simp [newDbProc, recordProc, Proc.get, Proc.run, readOrCreateMeta] at hdb
  | n + 3 =>
    rw [C63_swap_partial hb (d := ⟨.text (some m), slots⟩) ⟨rfl, h⟩ size now size' hf]
    omega

/-- A database directory with one chunk, for examples. -/
def exDisk : Disk := ⟨.text (some ⟨[115#8], [115#8]⟩), [⟨encodeChunkDir 0#64 1000#64, .complete, noStores⟩]⟩

theorem exDisk_intact : Intact ⟨[115#8], [115#8]⟩ exDisk := ⟨rfl, by
  intro s hs
  simp only [exDisk, List.mem_singleton] at hs; subst hs
  exact ⟨rfl, _, _, rfl⟩⟩

example : Opens (ascii "/data/db".toList) 1000#64 ⟨[115#8], [115#8]⟩ exDisk ∧
    NeverOpens (ascii "/data/db".toList) ((swapDiskProc 1000#64 1001#64).upTo 1 exDisk) ∧
    Opens (ascii "/data/db".toList) 1000#64 ⟨[115#8], [115#8]⟩ ((swapDiskProc 1000#64 1001#64).upTo 3 exDisk) := by
  have hb : ∀ b ∈ ascii "/data/db".toList, isCont b = false := by decide
  have hf : FreshWindow exDisk 1000#64 1001#64 := by
    intro s hs
    simp only [exDisk, List.mem_singleton] at hs; subst hs
    show encodeChunkDir 0#64 1000#64 ≠ encodeChunkDir 1001#64 (1001#64 + 1000#64)
    decide +kernel
  exact ⟨exDisk_intact.opens hb _, C63_violated hb exDisk_intact _ _ hf 1 (Or.inl rfl), (C63_swap_partial hb exDisk_intact _ _ _ hf 3).mpr (Or.inr (by omega))⟩

example (n : Nat) : Opens (ascii "/data/db".toList) 1000#64 ⟨[115#8], [115#8]⟩
    ((newDbProc (ascii "/data/db".toList) 1000#64 ⟨[115#8], [115#8]⟩ (fun _ => 7#64) 7#64).upTo n ⟨.unreadable, []⟩) ↔ n ≠ 2 ∧ n ≠ 5 ∧ n ≠ 6 :=
  C63_first_partial (by decide) (by simp) _ _ _ _ (by simp) n

/-! ### C64 -/

/-- Things in the database directory that are not chunks (no hexadecimal name) change nothing: the same chunks are found with and
without them, wherever they come in the listing. -/
theorem C64_foreign (base : Str) (hb : ∀ b ∈ base, isCont b = false) (clock : Str → U64) (ss : List Slot) (foreign : Slot → Bool)
    (hf : ∀ s ∈ ss, foreign s = true → startOk s.name ∧ (∀ b ∈ s.name, b ≠ 47#8) ∧ ¬ isHexName s.name) :
    readExistingChunks base clock ss = readExistingChunks base clock (ss.filter fun s => !foreign s) := by
  have : readChunks base clock ss = readChunks base clock (ss.filter fun s => !foreign s) := by
    induction ss with
    | nil => rfl
    | cons s ss ih =>
      have ih' := ih fun x hx => hf x (by simp [hx])
      rcases hs : foreign s
      · rw [List.filter_cons_of_pos (by simp [hs])]
        unfold readChunks
        rw [ih']
      · rw [List.filter_cons_of_neg (by simp [hs]), ← ih']
        obtain ⟨h1, h2, h3⟩ := hf s (by simp) hs
        have e : s.reopen base clock = some none := by
          unfold Slot.reopen
          rw [C11_ignored base hb ⟨s.name, decide (s.config = .complete), some true, some true, clock s.name⟩ h1 h2 h3]
        conv_lhs => unfold readChunks
        rw [e]
  unfold readExistingChunks
  rw [this]

-- a chunk listed after a directory called "lost+found"
example : (readExistingChunks (ascii "/data/db".toList) (fun _ => 5000#64)
      [⟨ascii "lost+found".toList, .absent, noStores⟩, ⟨encodeChunkDir 0#64 1000#64, .complete, noStores⟩]).map (·.map fun c => (c.start_, c.end_)) =
    some [(0#64, 1000#64)] := by
  rw [C64_foreign _ (by decide) _ _ (fun s => s.name == ascii "lost+found".toList) (by
    intro s hs hfor
    simp only [beq_iff_eq] at hfor
    rw [hfor]
    refine ⟨startOk_of_all (by decide), by decide, ?_⟩
    rintro ⟨v, hv⟩
    revert hv
    have : parseUnsigned 16 (2 ^ 128 - 1) (ascii "lost+found".toList) = none := by decide +kernel
    rw [this]; simp)]
  decide +kernel

/-- Every history of writes, ticks and restarts: the database can be reopened each time, whatever the order in which the directories are
listed, and a query then merges, in order of creation, what the chunks hold (the windows of chunks from before a restart being cut at
the clock reading of that restart). -/
theorem C64_history (B : BinSearch) (H : Hash) (base : Str) (hb : ∀ b ∈ base, isCont b = false) (size t0 : U64) (es : List LifeEvent)
    (he : GoodLife size (Gens.fresh size t0) es) (hlen : written es < 2 ^ 64 - 1) :
    ∃ db, (LiveDb.fresh size t0).run B base size es = some db ∧
      ∀ (q : Labels) (a b : U64), (∀ l ∈ q, WFLabel l) → a.toNat ≤ b.toNat →
        (∀ c ∈ ((Gens.fresh size t0).run size es).all, ∀ ls, SIncr (pointsFor c.h ls)) →
        (H.Good fun ls => ∃ c ∈ ((Gens.fresh size t0).run size es).all, ∃ s ∈ c.answer q a b, s.labels = ls) →
        ∃ r, db.query B H q a b = .ok r ∧ IsMerge (((Gens.fresh size t0).run size es).all.map fun c => c.answer q a b) r := by
  obtain ⟨db, h1, h2⟩ := (fresh_rep B size t0).run hb es he (by simpa [Gens.fresh, Gen.new] using hlen)
  refine ⟨db, h1, fun q a b hq hab hincr hg => ?_⟩
  refine h2.query H ?_ (Gens.run_wf size es _ he (by simp [Gens.all, Gens.fresh, Gen.new])) hincr hq hab hg
  intro c hc
  have := Gens.run_length size es (Gens.fresh size t0) 0 (by simp [Gens.all, Gens.fresh, Gen.new]) c hc
  omega

theorem Gens.run_snoc (size : U64) (g : Gens) (es : List LifeEvent) (e : LifeEvent) : g.run size (es ++ [e]) = (g.run size es).step size e := by
  unfold Gens.run; rw [List.foldl_append]; rfl

theorem LiveDb.run_snoc (B : BinSearch) (base : Str) (size : U64) (db : LiveDb) (es : List LifeEvent) (e : LifeEvent) :
    db.run B base size (es ++ [e]) = (db.run B base size es).bind fun db' => db'.step B base size e := by
  induction es generalizing db with
  | nil =>
    simp only [List.nil_append, LiveDb.run, Option.bind_some]
    rcases db.step B base size e with _ | x <;> rfl
  | cons x es ih =>
    simp only [List.cons_append, LiveDb.run]
    rcases db.step B base size x with _ | db'
    · rfl
    · exact ih db'

theorem GoodLife.append {size : U64} {es fs : List LifeEvent} {g : Gens} (h : GoodLife size g (es ++ fs)) :
    GoodLife size g es ∧ GoodLife size (g.run size es) fs := by
  induction es generalizing g with
  | nil => exact ⟨trivial, h⟩
  | cons e es ih => exact ⟨⟨h.1, (ih h.2).1⟩, (ih h.2).2⟩

theorem NoFuture.append {size : U64} {es fs : List LifeEvent} {g : Gens} (h : NoFuture size g (es ++ fs)) :
    NoFuture size g es ∧ NoFuture size (g.run size es) fs := by
  induction es generalizing g with
  | nil => exact ⟨trivial, h⟩
  | cons e es ih => exact ⟨⟨h.1, (ih h.2).1⟩, (ih h.2).2⟩

/-- Points lie inside the window their chunk was created with. -/
theorem Gens.run_inside (size : U64) (es : List LifeEvent) (g : Gens) (h : ∀ c ∈ g.all, ∀ w ∈ c.h, inside c.lo c.hi w.2 = true) :
    ∀ c ∈ (g.run size es).all, ∀ w ∈ c.h, inside c.lo c.hi w.2 = true := by
  induction es generalizing g with
  | nil => exact h
  | cons e es ih =>
    apply ih
    intro c hc w hw
    cases e with
    | write ls ps =>
      rcases List.mem_append.mp hc with hc | hc
      · exact h c (by simp [Gens.all]; left; exact hc) w hw
      · simp only [Gens.step, List.mem_singleton] at hc; subst hc
        rcases List.mem_append.mp hw with hw | hw
        · exact h g.cur (by simp [Gens.all]) w hw
        · obtain ⟨p, hp, rfl⟩ := List.mem_map.mp hw
          exact (List.mem_filter.mp hp).2
    | tick r =>
      rcases List.mem_append.mp hc with hc | hc
      · exact h c hc w hw
      · simp only [Gens.step, List.mem_singleton] at hc; subst hc; simp [Gen.new] at hw
    | restart o k n =>
      rcases List.mem_append.mp hc with hc | hc
      · obtain ⟨c', hc', rfl⟩ := List.mem_map.mp hc
        exact h c' hc' w hw
      · simp only [Gens.step, List.mem_singleton] at hc; subst hc; simp [Gen.new] at hw

/-- Without points ahead of the clock, no window shown is too short. -/
theorem Gens.run_shown (size : U64) (es : List LifeEvent) (g : Gens) (hn : NoFuture size g es)
    (hi : ∀ c ∈ g.all, ∀ w ∈ c.h, inside c.lo c.hi w.2 = true) (hc : g.cur.shown = g.cur.hi) (h : ∀ c ∈ g.all, ∀ w ∈ c.h, w.2.ts.toNat ≤ c.shown.toNat) :
    ∀ c ∈ (g.run size es).all, ∀ w ∈ c.h, w.2.ts.toNat ≤ c.shown.toNat := by
  induction es generalizing g with
  | nil => exact h
  | cons e es ih =>
    refine ih _ hn.2 (Gens.run_inside size [e] g hi) ?_ ?_
    · cases e <;> first | exact hc | rfl
    · intro c hcm w hw
      cases e with
      | write ls ps =>
        rcases List.mem_append.mp hcm with hcm | hcm
        · exact h c (by simp [Gens.all]; left; exact hcm) w hw
        · have hin := Gens.run_inside size [.write ls ps] g hi c (by simp only [Gens.all, Gens.run, List.foldl]; exact List.mem_append_right _ hcm) w hw
          simp only [Gens.step, List.mem_singleton] at hcm; subst hcm
          simp only [] at hin ⊢
          rw [hc]
          simp only [inside, Bool.and_eq_true, decide_eq_true_eq] at hin
          omega
      | tick r =>
        rcases List.mem_append.mp hcm with hcm | hcm
        · exact h c hcm w hw
        · simp only [Gens.step, List.mem_singleton] at hcm; subst hcm; simp [Gen.new] at hw
      | restart o k n =>
        rcases List.mem_append.mp hcm with hcm | hcm
        · obtain ⟨c', hc', rfl⟩ := List.mem_map.mp hcm
          have h1 := hn.1 c' hc' w hw
          have h2 := hi c' hc' w hw
          simp only [inside, Bool.and_eq_true, decide_eq_true_eq] at h2
          show _ ≤ (if c'.hi.toNat > (k c'.name).toNat then k c'.name else c'.hi).toNat
          split <;> omega
        · simp only [Gens.step, List.mem_singleton] at hcm; subst hcm; simp [Gen.new] at hw

theorem Gens.run_shown_le (size : U64) (es : List LifeEvent) (g : Gens) (h : ∀ c ∈ g.all, c.shown.toNat ≤ c.hi.toNat) :
    ∀ c ∈ (g.run size es).all, c.shown.toNat ≤ c.hi.toNat := by
  induction es generalizing g with
  | nil => exact h
  | cons e es ih =>
    apply ih
    intro c hc
    cases e with
    | write ls ps =>
      rcases List.mem_append.mp hc with hc | hc
      · exact h c (by simp [Gens.all]; left; exact hc)
      · simp only [Gens.step, List.mem_singleton] at hc; subst hc
        exact h g.cur (by simp [Gens.all])
    | tick r =>
      rcases List.mem_append.mp hc with hc | hc
      · exact h c hc
      · simp only [Gens.step, List.mem_singleton] at hc; subst hc; simp [Gen.new]
    | restart o k n =>
      rcases List.mem_append.mp hc with hc | hc
      · obtain ⟨c', hc', rfl⟩ := List.mem_map.mp hc
        show (if c'.hi.toNat > (k c'.name).toNat then k c'.name else c'.hi).toNat ≤ c'.hi.toNat
        split <;> omega
      · simp only [Gens.step, List.mem_singleton] at hc; subst hc; simp [Gen.new]

theorem seriesWith_append (rs rs' : ChunkResults) (ls : Labels) : seriesWith (rs ++ rs') ls = seriesWith rs ls ++ seriesWith rs' ls := by
  unfold seriesWith; rw [List.flatMap_append]

theorem answer_new (lo size : U64) (q : Labels) (a b : U64) : (Gen.new lo size).answer q a b = [] := by
  unfold Gen.answer Desc.answer
  have : matched sledAccepts (Gen.new lo size).h q = [] := by
    unfold matched
    rw [if_pos]
    unfold knownLabels
    rw [List.filter_eq_nil_iff]
    intro l _
    simp [numbered, labelSets, Gen.new]
  simp only [this]
  split <;> rfl

/-- A restart that leaves the contributions of all chunks unchanged leaves every answer unchanged. -/
theorem restart_same (B : BinSearch) (H : Hash) (base : Str) (hb : ∀ b ∈ base, isCont b = false) (size t0 : U64) (es : List LifeEvent)
    (order : List Slot → List Slot) (clock : Str → U64) (now : U64) (he : GoodLife size (Gens.fresh size t0) (es ++ [.restart order clock now]))
    (hlen : written es < 2 ^ 64 - 1) (q : Labels) (hq : ∀ l ∈ q, WFLabel l) (a b : U64) (hab : a.toNat ≤ b.toNat)
    (hincr : ∀ c ∈ ((Gens.fresh size t0).run size es).all, ∀ ls, SIncr (pointsFor c.h ls))
    (hg : H.Good fun ls => ∃ c ∈ ((Gens.fresh size t0).run size es).all, ∃ s ∈ c.answer q a b, s.labels = ls)
    (hsame : ∀ c ∈ ((Gens.fresh size t0).run size es).all, (c.reopened (clock c.name)).answer q a b = c.answer q a b) :
    ∃ db db' r r', (LiveDb.fresh size t0).run B base size es = some db ∧ db.step B base size (.restart order clock now) = some db' ∧
      db.query B H q a b = .ok r ∧ db'.query B H q a b = .ok r' ∧ r.Perm r' := by
  obtain ⟨he1, he2⟩ := he.append
  obtain ⟨db, h1, h2⟩ := C64_history B H base hb size t0 es he1 hlen
  have hw : written (es ++ [LifeEvent.restart order clock now]) = written es := by
    clear he he1 he2 h1 h2 hincr hg hsame hlen
    induction es with
    | nil => rfl
    | cons e es ih => rw [List.cons_append, written_cons, ih, ← written_cons]
  obtain ⟨db', h3, h4⟩ := C64_history B H base hb size t0 (es ++ [.restart order clock now]) he (by rw [hw]; exact hlen)
  rw [LiveDb.run_snoc, h1] at h3
  obtain ⟨r, h5, h6⟩ := h2 q a b hq hab hincr hg
  rw [Gens.run_snoc] at h4
  have hall : (((Gens.fresh size t0).run size es).step size (.restart order clock now)).all =
      (((Gens.fresh size t0).run size es).all.map fun c => c.reopened (clock c.name)) ++ [Gen.new now size] := rfl
  rw [hall] at h4
  have hmap : ((((Gens.fresh size t0).run size es).all.map fun c => c.reopened (clock c.name)) ++ [Gen.new now size]).map (fun c => c.answer q a b) =
      (((Gens.fresh size t0).run size es).all.map fun c => c.answer q a b) ++ [[]] := by
    rw [List.map_append, List.map_map, List.map_singleton, answer_new]
    congr 1
    exact List.map_congr_left hsame
  obtain ⟨r', h7, h8⟩ := h4 q a b hq hab (by
      intro c hc ls
      rcases List.mem_append.mp hc with hc | hc
      · obtain ⟨c', hc', rfl⟩ := List.mem_map.mp hc
        exact hincr c' hc' ls
      · simp only [List.mem_singleton] at hc; subst hc; simp [Gen.new, pointsFor, SIncr])
    (by
      rintro k k' ⟨c, hc, s, hs, rfl⟩ ⟨c', hc', s', hs', rfl⟩ ht
      have key : ∀ c ∈ ((((Gens.fresh size t0).run size es).all.map fun c => c.reopened (clock c.name)) ++ [Gen.new now size]), ∀ s ∈ c.answer q a b,
          ∃ c ∈ ((Gens.fresh size t0).run size es).all, ∃ s0 ∈ c.answer q a b, s0.labels = s.labels := by
        intro c hc s hs
        rcases List.mem_append.mp hc with hc | hc
        · obtain ⟨c0, hc0, rfl⟩ := List.mem_map.mp hc
          rw [hsame c0 hc0] at hs
          exact ⟨c0, hc0, s, hs, rfl⟩
        · simp only [List.mem_singleton] at hc; subst hc; rw [answer_new] at hs; simp at hs
      exact hg _ _ (key c hc s hs) (key c' hc' s' hs') ht)
  refine ⟨db, db', r, r', h1, h3, h5, h7, isMerge_perm h6 h8 fun ls => ?_⟩
  rw [hmap, seriesWith_append]
  simp [seriesWith]

/-- What holds of C64: if no stored point is ahead of the clock at any restart, a restart changes no answer. -/
theorem C64_partial (B : BinSearch) (H : Hash) (base : Str) (hb : ∀ b ∈ base, isCont b = false) (size t0 : U64) (es : List LifeEvent)
    (order : List Slot → List Slot) (clock : Str → U64) (now : U64) (he : GoodLife size (Gens.fresh size t0) (es ++ [.restart order clock now]))
    (hn : NoFuture size (Gens.fresh size t0) (es ++ [.restart order clock now]))
    (hlen : written es < 2 ^ 64 - 1) (q : Labels) (hq : ∀ l ∈ q, WFLabel l) (a b : U64) (hab : a.toNat ≤ b.toNat)
    (hincr : ∀ c ∈ ((Gens.fresh size t0).run size es).all, ∀ ls, SIncr (pointsFor c.h ls))
    (hg : H.Good fun ls => ∃ c ∈ ((Gens.fresh size t0).run size es).all, ∃ s ∈ c.answer q a b, s.labels = ls) :
    ∃ db db' r r', (LiveDb.fresh size t0).run B base size es = some db ∧ db.step B base size (.restart order clock now) = some db' ∧
      db.query B H q a b = .ok r ∧ db'.query B H q a b = .ok r' ∧ r.Perm r' := by
  refine restart_same B H base hb size t0 es order clock now he hlen q hq a b hab hincr hg fun c hc => ?_
  have h0 : ∀ c ∈ (Gens.fresh size t0).all, ∀ w ∈ c.h, inside c.lo c.hi w.2 = true := by simp [Gens.all, Gens.fresh, Gen.new]
  have h1 := Gens.run_shown size es _ hn.append.1 h0 rfl (by simp [Gens.all, Gens.fresh, Gen.new]) c hc
  have h2 := Gens.run_inside size es _ h0 c hc
  have h3 := hn.append.2.1 c hc
  refine answer_shown (fun w hw => ?_) h1 q a b
  have := h2 w hw
  have := h3 w hw
  simp only [inside, Bool.and_eq_true, decide_eq_true_eq] at *
  show _ ≤ (if c.hi.toNat > (clock c.name).toNat then clock c.name else c.hi).toNat
  split <;> omega

/-- The other part of C64: whatever the points, a restart changes no answer for a range that starts before the clock readings. -/
theorem C64_range_partial (B : BinSearch) (H : Hash) (base : Str) (hb : ∀ b ∈ base, isCont b = false) (size t0 : U64) (es : List LifeEvent)
    (order : List Slot → List Slot) (clock : Str → U64) (now : U64) (he : GoodLife size (Gens.fresh size t0) (es ++ [.restart order clock now]))
    (hlen : written es < 2 ^ 64 - 1) (q : Labels) (hq : ∀ l ∈ q, WFLabel l) (a b : U64) (hab : a.toNat ≤ b.toNat)
    (ha : ∀ c ∈ ((Gens.fresh size t0).run size es).all, a.toNat ≤ c.hi.toNat → a.toNat ≤ c.shown.toNat ∧ a.toNat ≤ (clock c.name).toNat)
    (hincr : ∀ c ∈ ((Gens.fresh size t0).run size es).all, ∀ ls, SIncr (pointsFor c.h ls))
    (hg : H.Good fun ls => ∃ c ∈ ((Gens.fresh size t0).run size es).all, ∃ s ∈ c.answer q a b, s.labels = ls) :
    ∃ db db' r r', (LiveDb.fresh size t0).run B base size es = some db ∧ db.step B base size (.restart order clock now) = some db' ∧
      db.query B H q a b = .ok r ∧ db'.query B H q a b = .ok r' ∧ r.Perm r' := by
  refine restart_same B H base hb size t0 es order clock now he hlen q hq a b hab hincr hg fun c hc => ?_
  have h1 := ha c hc
  have h2 := Gens.run_shown_le size es (Gens.fresh size t0) (by simp [Gens.all, Gens.fresh, Gen.new]) c hc
  unfold Gen.answer Desc.answer
  have : overlaps (c.reopened (clock c.name)).lo (c.reopened (clock c.name)).shown a b = overlaps c.lo c.shown a b := by
    show overlaps c.lo (if c.hi.toNat > (clock c.name).toNat then clock c.name else c.hi) a b = _
    have e : ((if c.hi.toNat > (clock c.name).toNat then clock c.name else c.hi).toNat < a.toNat) ↔ c.shown.toNat < a.toNat := by
      by_cases hh : a.toNat ≤ c.hi.toNat
      · have := h1 hh
        split <;> omega
      · split <;> omega
    unfold overlaps
    simp only [e]
  simp only [this]
  rfl

/-- Example: a point 400 ms ahead of the clock of the restart that follows. -/
def exFuture : List LifeEvent := [.write [lbl "a" "1"] [⟨300#64, 4#64⟩, ⟨900#64, 5#64⟩]]
/-- The restart at 500. -/
def exRestart : LifeEvent := .restart id (fun _ => 500#64) 500#64

theorem exWf : WFSet [lbl "a" "1"] := wfSet_of (by decide +kernel)

theorem exFuture_good : GoodLife 1000#64 (Gens.fresh 1000#64 100#64) (exFuture ++ [exRestart]) :=
  ⟨exWf, ⟨fun _ => List.Perm.refl _, by decide +kernel, by decide⟩, trivial⟩

theorem exFuture_incr : ∀ c ∈ ((Gens.fresh 1000#64 100#64).run 1000#64 exFuture).all, ∀ ls, SIncr (pointsFor c.h ls) := by
  intro c hc ls
  have e : ((Gens.fresh 1000#64 100#64).run 1000#64 exFuture).all = [⟨100#64, 1100#64, 1100#64, [([lbl "a" "1"], ⟨300#64, 4#64⟩), ([lbl "a" "1"], ⟨900#64, 5#64⟩)]⟩] := by rfl
  rw [e, List.mem_singleton] at hc; subst hc
  exact incr_pointsFor (by unfold SIncr; decide +kernel) ls

theorem exRestart_incr : ∀ c ∈ ((Gens.fresh 1000#64 100#64).run 1000#64 (exFuture ++ [exRestart])).all, ∀ ls, SIncr (pointsFor c.h ls) := by
  intro c hc ls
  have e : ((Gens.fresh 1000#64 100#64).run 1000#64 (exFuture ++ [exRestart])).all =
      [⟨100#64, 1100#64, 500#64, [([lbl "a" "1"], ⟨300#64, 4#64⟩), ([lbl "a" "1"], ⟨900#64, 5#64⟩)]⟩, ⟨500#64, 1500#64, 1500#64, []⟩] := by rfl
  rw [e] at hc
  simp only [List.mem_cons, List.not_mem_nil, or_false] at hc
  rcases hc with rfl | rfl
  · exact incr_pointsFor (by unfold SIncr; decide +kernel) ls
  · exact incr_pointsFor (by unfold SIncr; decide +kernel) ls

/-- C64 fails: an accepted point with a timestamp ahead of the clock is returned before a restart, and not after it. -/
theorem C64_violated (B : BinSearch) (base : Str) (hb : ∀ b ∈ base, isCont b = false) :
    ∃ db db', (LiveDb.fresh 1000#64 100#64).run B base 1000#64 exFuture = some db ∧ db.step B base 1000#64 exRestart = some db' ∧
      db.query B idealHash [lbl "a" "1"] 800#64 950#64 = .ok [([lbl "a" "1"], [⟨900#64, 5#64⟩])] ∧
      db'.query B idealHash [lbl "a" "1"] 800#64 950#64 = .ok [] := by
  obtain ⟨db, h1, h2⟩ := C64_history B idealHash base hb 1000#64 100#64 exFuture exFuture_good.append.1 (by decide)
  obtain ⟨db', h3, h4⟩ := C64_history B idealHash base hb 1000#64 100#64 (exFuture ++ [exRestart]) exFuture_good (by decide)
  rw [LiveDb.run_snoc, h1] at h3
  have hq : ∀ l ∈ [lbl "a" "1"], WFLabel l := exWf.wf
  obtain ⟨r, h5, h6⟩ := h2 [lbl "a" "1"] 800#64 950#64 hq (by decide) exFuture_incr (idealHash_good _)
  obtain ⟨r', h7, h8⟩ := h4 [lbl "a" "1"] 800#64 950#64 hq (by decide) exRestart_incr (idealHash_good _)
  have e1 : (((Gens.fresh 1000#64 100#64).run 1000#64 exFuture).all.map fun c => c.answer [lbl "a" "1"] 800#64 950#64) =
      [[⟨1#64, [lbl "a" "1"], [⟨900#64, 5#64⟩]⟩]] := by decide +kernel
  have e2 : (((Gens.fresh 1000#64 100#64).run 1000#64 (exFuture ++ [exRestart])).all.map fun c => c.answer [lbl "a" "1"] 800#64 950#64) = [[], []] := by
    decide +kernel
  rw [e1] at h6
  rw [e2] at h8
  refine ⟨db, db', h1, h3, ?_, ?_⟩
  · have hr : r = [([lbl "a" "1"], [⟨900#64, 5#64⟩])] := by
      have hm : ∀ e, e ∈ r ↔ e = ([lbl "a" "1"], [⟨900#64, 5#64⟩]) := by
        rintro ⟨ls, ps⟩
        rw [h6.entries]
        unfold mergedPoints seriesWith
        by_cases hl : [lbl "a" "1"] = ls
        · subst hl; simp
        · simp [hl, Ne.symm hl]
      have hnd := h6.once
      match r, hm, hnd with
      | [], hm, _ => have := (hm _).mpr rfl; simp at this
      | [e], hm, _ => rw [(hm e).mp (by simp)]
      | e :: e' :: r, hm, hnd => have h1 := (hm e).mp (by simp); have h2 := (hm e').mp (by simp); rw [h1, h2] at hnd; simp at hnd
    rw [h5, hr]
  · have hr : r' = [] := by
      match r', h8 with
      | [], _ => rfl
      | (ls, ps) :: r', h8 => have := (h8.entries ls ps).mp (by simp); simp [seriesWith] at this
    rw [h7, hr]

-- the same restart keeps the answer for ranges that start before it
example (B : BinSearch) : ∃ db db' r r', (LiveDb.fresh 1000#64 100#64).run B (ascii "/d".toList) 1000#64 exFuture = some db ∧
    db.step B (ascii "/d".toList) 1000#64 exRestart = some db' ∧ db.query B idealHash [lbl "a" "1"] 200#64 950#64 = .ok r ∧
    db'.query B idealHash [lbl "a" "1"] 200#64 950#64 = .ok r' ∧ r.Perm r' :=
  C64_range_partial B idealHash _ (by decide) 1000#64 100#64 exFuture id (fun _ => 500#64) 500#64 exFuture_good (by decide) _ exWf.wf 200#64 950#64 (by decide)
    (by
      intro c hc
      have e : ((Gens.fresh 1000#64 100#64).run 1000#64 exFuture).all = [⟨100#64, 1100#64, 1100#64, [([lbl "a" "1"], ⟨300#64, 4#64⟩), ([lbl "a" "1"], ⟨900#64, 5#64⟩)]⟩] := by rfl
      rw [e, List.mem_singleton] at hc; subst hc
      intro _; exact ⟨by decide, by decide⟩)
    exFuture_incr (idealHash_good _)
-- a restart at 950, after all points
example (B : BinSearch) (a b : U64) (hab : a.toNat ≤ b.toNat) :
    ∃ db db' r r', (LiveDb.fresh 1000#64 100#64).run B (ascii "/d".toList) 1000#64 exFuture = some db ∧
    db.step B (ascii "/d".toList) 1000#64 (.restart List.reverse (fun _ => 950#64) 951#64) = some db' ∧ db.query B idealHash [lbl "a" "1"] a b = .ok r ∧
    db'.query B idealHash [lbl "a" "1"] a b = .ok r' ∧ r.Perm r' :=
  C64_partial B idealHash _ (by decide) 1000#64 100#64 exFuture List.reverse (fun _ => 950#64) 951#64
    ⟨exWf, ⟨fun _ => List.reverse_perm _, by decide +kernel, by decide⟩, trivial⟩ ⟨trivial, by
      intro c hc w hw
      have e : ((Gens.fresh 1000#64 100#64).step 1000#64 (.write [lbl "a" "1"] [⟨300#64, 4#64⟩, ⟨900#64, 5#64⟩])).all =
        [⟨100#64, 1100#64, 1100#64, [([lbl "a" "1"], ⟨300#64, 4#64⟩), ([lbl "a" "1"], ⟨900#64, 5#64⟩)]⟩] := by rfl
      rw [e, List.mem_singleton] at hc; subst hc
      simp only [List.mem_cons, List.not_mem_nil, or_false] at hw
      rcases hw with rfl | rfl <;> decide, trivial⟩ (by decide) _ exWf.wf a b hab exFuture_incr (idealHash_good _)

/-! ### C65 -/

/-- In order of creation, every point of a chunk is earlier than every point of a later one. -/
theorem merged_sorted_points {acc : List TimePoint → TimePoint → Bool} (ds : List Desc) (hincr : ∀ d ∈ ds, ∀ ls, SIncr (keepBy acc (pointsFor d.h ls)))
    (hord : ds.Pairwise fun d e => ∀ w ∈ d.h, ∀ w' ∈ e.h, w.2.ts.toNat < w'.2.ts.toNat) (q : Labels) (a b : U64)
    (ls : Labels) : SIncr (mergedPoints (ds.map fun d => d.answer acc q a b) ls) := by
  have hmem : ∀ d ∈ ds, ∀ s ∈ d.answer acc q a b, ∀ p ∈ s.points, ∃ w ∈ d.h, w.2 = p := by
    intro d hd s hs p hp
    exact ((answer_points (hincr d hd) hs).2 p hp).2.2
  induction ds with
  | nil => simp [mergedPoints, seriesWith, SIncr]
  | cons d ds ih =>
    rw [List.pairwise_cons] at hord
    have ih := ih (fun x hx => hincr x (by simp [hx])) hord.2 (fun x hx => hmem x (by simp [hx]))
    have e : mergedPoints ((d :: ds).map fun d => d.answer acc q a b) ls =
        ((d.answer acc q a b).filter fun s => decide (s.labels = ls)).flatMap (·.points) ++ mergedPoints (ds.map fun d => d.answer acc q a b) ls := by
      unfold mergedPoints seriesWith
      rw [List.map_cons, List.flatMap_cons, List.flatMap_append]
    rw [e]
    unfold SIncr
    rw [List.pairwise_append]
    refine ⟨?_, ih, ?_⟩
    · have h1 := merged_sorted [⟨d.lo, d.hi, d.h⟩] (acc := acc) (by simpa using hincr d (by simp)) (by simp)
      have hn := answer_nodup acc d q a b
      have hp : ∀ s ∈ d.answer acc q a b, SIncr s.points := fun s hs => (answer_points (hincr d (by simp)) hs).1
      clear h1
      generalize d.answer acc q a b = l at hn hp
      clear e ih hmem
      induction l with
      | nil => simp
      | cons s l ihl =>
        rw [List.map_cons, List.nodup_cons] at hn
        rw [List.filter_cons]
        split
        · rename_i h
          simp only [decide_eq_true_eq] at h
          have : (l.filter fun s => decide (s.labels = ls)) = [] := by
            rw [List.filter_eq_nil_iff]
            intro x hx hx'
            simp only [decide_eq_true_eq] at hx'
            exact hn.1 (by rw [h, ← hx']; exact List.mem_map_of_mem hx)
          rw [this]
          have h1 := hp s (by simp)
          unfold SIncr at h1
          simpa using h1
        · exact ihl hn.2 fun x hx => hp x (by simp [hx])
    · intro x hx y hy
      obtain ⟨s, hs, hxs⟩ := List.mem_flatMap.mp hx
      obtain ⟨w, hw, rfl⟩ := hmem d (by simp) s (List.mem_filter.mp hs).1 x hxs
      unfold mergedPoints seriesWith at hy
      obtain ⟨s', hs', hys⟩ := List.mem_flatMap.mp hy
      obtain ⟨r, hr, hs''⟩ := List.mem_flatMap.mp hs'
      obtain ⟨d', hd', rfl⟩ := List.mem_map.mp hr
      obtain ⟨w', hw', rfl⟩ := hmem d' (by simp [hd']) s' (List.mem_filter.mp hs'').1 y hys
      exact hord.1 d' hd' w hw w' hw'

/-- Points of earlier chunks are not later than the start of any later chunk. -/
def Before (gs : List Gen) : Prop := gs.Pairwise fun c d => ∀ w ∈ c.h, w.2.ts.toNat ≤ d.lo.toNat

theorem before_snoc {gs : List Gen} {c g : Gen} (h : Before (gs ++ [c])) (hl : c.lo.toNat ≤ g.lo.toNat) (hc : ∀ w ∈ c.h, w.2.ts.toNat ≤ g.lo.toNat) :
    Before ((gs ++ [c]) ++ [g]) := by
  unfold Before at h ⊢
  rw [List.pairwise_append]
  refine ⟨h, by simp, ?_⟩
  intro x hx y hy w hw
  simp only [List.mem_singleton] at hy; subst hy
  rw [List.pairwise_append] at h
  rcases List.mem_append.mp hx with hx | hx
  · have := h.2.2 x hx c (by simp) w hw; omega
  · simp only [List.mem_singleton] at hx; subst hx; exact hc w hw

theorem Gens.run_before (size : U64) (es : List LifeEvent) (g : Gens) (he : GoodLife size g es) (hn : NoFuture size g es) (hs : SteadyClock size g es)
    (hi : ∀ c ∈ g.all, ∀ w ∈ c.h, inside c.lo c.hi w.2 = true) (h : Before g.all) : Before (g.run size es).all := by
  induction es generalizing g with
  | nil => exact h
  | cons e es ih =>
    refine ih _ he.2 hn.2 hs.2 (Gens.run_inside size [e] g hi) ?_
    cases e with
    | write ls ps =>
      unfold Before Gens.all at h ⊢
      rw [List.pairwise_append] at h ⊢
      refine ⟨h.1, by simp, ?_⟩
      intro x hx y hy w hw
      simp only [Gens.step, List.mem_singleton] at hy; subst hy
      exact h.2.2 x hx g.cur (by simp) w hw
    | tick r =>
      have h1 : g.cur.lo.toNat ≤ r.toNat := he.1.1
      have h2 : r.toNat + 1 + size.toNat < 2 ^ 64 := he.1.2
      have h3 : g.cur.hi.toNat ≤ r.toNat + 1 := hs.1
      have e1 : (r + 1#64).toNat = r.toNat + 1 := by
        rw [BitVec.toNat_add, Nat.mod_eq_of_lt (by simp; omega)]; simp
      refine before_snoc h (by show _ ≤ (r + 1#64).toNat; omega) fun w hw => ?_
      have h4 := hi g.cur (by simp [Gens.all]) w hw
      simp only [inside, Bool.and_eq_true, decide_eq_true_eq] at h4
      show _ ≤ (r + 1#64).toNat
      omega
    | restart o k n =>
      have h1 : g.cur.lo.toNat < n.toNat := he.1.2.1
      have h2 := hn.1
      have h3 := hs.1
      have hr : Before (g.all.map fun c => c.reopened (k c.name)) := by
        unfold Before at h ⊢; rw [List.pairwise_map]; exact h
      show Before ((g.all.map fun c => c.reopened (k c.name)) ++ [Gen.new n size])
      unfold Gens.all at hr ⊢
      rw [List.map_append, List.map_singleton] at hr ⊢
      refine before_snoc hr (by show g.cur.lo.toNat ≤ n.toNat; omega) fun w hw => ?_
      have h4 := h2 g.cur (by simp [Gens.all]) w hw
      have h5 := h3 g.cur (by simp [Gens.all])
      show _ ≤ n.toNat
      omega

/-- What holds of C65: if the clock is steady and no stored point is ahead of it at a restart, then after every history of writes,
ticks and restarts every query returns each series once, with strictly increasing timestamps inside the range. -/
theorem C65_partial (B : BinSearch) (H : Hash) (base : Str) (hb : ∀ b ∈ base, isCont b = false) (size t0 : U64) (es : List LifeEvent)
    (he : GoodLife size (Gens.fresh size t0) es) (hn : NoFuture size (Gens.fresh size t0) es) (hs : SteadyClock size (Gens.fresh size t0) es)
    (hlen : written es < 2 ^ 64 - 1) (q : Labels) (hq : ∀ l ∈ q, WFLabel l) (a b : U64) (hab : a.toNat ≤ b.toNat)
    (hincr : ∀ c ∈ ((Gens.fresh size t0).run size es).all, ∀ ls, SIncr (pointsFor c.h ls))
    (hg : H.Good fun ls => ∃ c ∈ ((Gens.fresh size t0).run size es).all, ∃ s ∈ c.answer q a b, s.labels = ls) :
    ∃ db r, (LiveDb.fresh size t0).run B base size es = some db ∧ db.query B H q a b = .ok r ∧ (r.map (·.1)).Nodup ∧
      ∀ x ∈ r, x.2.Pairwise (fun p p' => p.ts.toNat < p'.ts.toNat) ∧ ∀ p ∈ x.2, a.toNat ≤ p.ts.toNat ∧ p.ts.toNat ≤ b.toNat := by
  obtain ⟨db, h1, h2⟩ := C64_history B H base hb size t0 es he hlen
  obtain ⟨r, h3, h4⟩ := h2 q a b hq hab hincr hg
  refine ⟨db, r, h1, h3, h4.once, ?_⟩
  have h0 : ∀ c ∈ (Gens.fresh size t0).all, ∀ w ∈ c.h, inside c.lo c.hi w.2 = true := by simp [Gens.all, Gens.fresh, Gen.new]
  have hbef := Gens.run_before size es _ he hn hs h0 (by simp [Before, Gens.all, Gens.fresh])
  have hins := Gens.run_inside size es _ h0
  generalize ((Gens.fresh size t0).run size es).all = gs at *
  rintro ⟨ls, ps⟩ hx
  obtain ⟨-, rfl⟩ := (h4.entries ls ps).mp hx
  have e : (gs.map fun c => c.answer q a b) = (gs.map fun c => (⟨c.lo, c.shown, c.h⟩ : Desc)).map fun d => d.answer sledAccepts q a b := by
    rw [List.map_map]; rfl
  have hi' : ∀ d ∈ gs.map fun c => (⟨c.lo, c.shown, c.h⟩ : Desc), ∀ ls, SIncr (keepBy sledAccepts (pointsFor d.h ls)) := by
    intro d hd ls
    obtain ⟨c, hc, rfl⟩ := List.mem_map.mp hd
    rw [keepBy_sled]; exact hincr c hc ls
  simp only []
  rw [e]
  refine ⟨merged_sorted_points _ hi' ?_ q a b ls, ?_⟩
  · rw [List.pairwise_map]
    refine hbef.imp_of_mem fun {c d} _ hd hcd w hw w' hw' => ?_
    have h5 := hcd w hw
    have h6 := hins d hd w' hw'
    simp only [inside, Bool.and_eq_true, decide_eq_true_eq] at h6
    simp only [] at *
    omega
  · intro p hp
    unfold mergedPoints seriesWith at hp
    obtain ⟨s, hs', hps⟩ := List.mem_flatMap.mp hp
    obtain ⟨x, hx', hs''⟩ := List.mem_flatMap.mp hs'
    obtain ⟨d, hd, rfl⟩ := List.mem_map.mp hx'
    have := (answer_points (hi' d hd) (List.mem_filter.mp hs'').1).2 p hps
    exact ⟨this.1, this.2.1⟩

/-- A write after the restart. -/
def exAfter : LifeEvent := .write [lbl "a" "1"] [⟨600#64, 6#64⟩]

theorem exAfter_good : GoodLife 1000#64 (Gens.fresh 1000#64 100#64) (exFuture ++ [exRestart, exAfter]) :=
  ⟨exWf, ⟨fun _ => List.Perm.refl _, by decide +kernel, by decide⟩, exWf, trivial⟩

theorem merge_pair {ls : Labels} {ps : List TimePoint} {rs : ChunkResults} {r : List (Labels × List TimePoint)} (h : IsMerge rs r)
    (hs : ∀ l, seriesWith rs l ≠ [] ↔ l = ls) (hp : mergedPoints rs ls = ps) : r = [(ls, ps)] := by
  have hm : ∀ e, e ∈ r ↔ e = (ls, ps) := by
    rintro ⟨l, p⟩
    rw [h.entries, hs, Prod.mk.injEq]
    constructor
    · rintro ⟨rfl, rfl⟩; exact ⟨rfl, hp⟩
    · rintro ⟨rfl, rfl⟩; exact ⟨rfl, hp.symm⟩
  have hnd := h.once
  match r, hm, hnd with
  | [], hm, _ => have := (hm _).mpr rfl; simp at this
  | [e], hm, _ => rw [(hm e).mp (by simp)]
  | e :: e' :: r, hm, hnd => have h1 := (hm e).mp (by simp); have h2 := (hm e').mp (by simp); rw [h1, h2] at hnd; simp at hnd

/-- C65 fails with a point ahead of the clock: the next chunk starts before it, and the result is not in order of time although every
chunk received its points in order. -/
theorem C65_violated (B : BinSearch) (base : Str) (hb : ∀ b ∈ base, isCont b = false) :
    ∃ db, (LiveDb.fresh 1000#64 100#64).run B base 1000#64 (exFuture ++ [exRestart, exAfter]) = some db ∧
      db.query B idealHash [lbl "a" "1"] 200#64 950#64 = .ok [([lbl "a" "1"], [⟨300#64, 4#64⟩, ⟨900#64, 5#64⟩, ⟨600#64, 6#64⟩])] := by
  obtain ⟨db, h1, h2⟩ := C64_history B idealHash base hb 1000#64 100#64 (exFuture ++ [exRestart, exAfter]) exAfter_good (by decide)
  obtain ⟨r, h5, h6⟩ := h2 [lbl "a" "1"] 200#64 950#64 exWf.wf (by decide) (by
    intro c hc ls
    have e : ((Gens.fresh 1000#64 100#64).run 1000#64 (exFuture ++ [exRestart, exAfter])).all =
        [⟨100#64, 1100#64, 500#64, [([lbl "a" "1"], ⟨300#64, 4#64⟩), ([lbl "a" "1"], ⟨900#64, 5#64⟩)]⟩, ⟨500#64, 1500#64, 1500#64, [([lbl "a" "1"], ⟨600#64, 6#64⟩)]⟩] := by
      rfl
    rw [e] at hc
    simp only [List.mem_cons, List.not_mem_nil, or_false] at hc
    rcases hc with rfl | rfl
    · exact incr_pointsFor (by unfold SIncr; decide +kernel) ls
    · exact incr_pointsFor (by unfold SIncr; decide +kernel) ls) (idealHash_good _)
  refine ⟨db, h1, ?_⟩
  have e1 : (((Gens.fresh 1000#64 100#64).run 1000#64 (exFuture ++ [exRestart, exAfter])).all.map fun c => c.answer [lbl "a" "1"] 200#64 950#64) =
      [[⟨1#64, [lbl "a" "1"], [⟨300#64, 4#64⟩, ⟨900#64, 5#64⟩]⟩], [⟨1#64, [lbl "a" "1"], [⟨600#64, 6#64⟩]⟩]] := by decide +kernel
  rw [e1] at h6
  rw [h5, merge_pair (ls := [lbl "a" "1"]) h6 (by
    intro l
    by_cases hl : [lbl "a" "1"] = l
    · subst hl; simp [seriesWith]
    · simp [seriesWith, hl, Ne.symm hl]) rfl]
  congr 1

/-- a history with a tick and a restart -/
def exLife : List LifeEvent :=
  [.write [lbl "a" "1"] [⟨300#64, 4#64⟩], .tick 1100#64, .write [lbl "a" "1"] [⟨1200#64, 5#64⟩], .restart List.reverse (fun _ => 1500#64) 1500#64,
        .write [lbl "a" "1"] [⟨1600#64, 6#64⟩]]

-- a history with a tick and a restart for which the hypotheses of `C65_partial` hold
example (B : BinSearch) : ∃ db r, (LiveDb.fresh 1000#64 100#64).run B (ascii "/d".toList) 1000#64
      exLife = some db ∧
    db.query B idealHash [lbl "a" "1"] 200#64 1650#64 = .ok r ∧ (r.map (·.1)).Nodup ∧
      ∀ x ∈ r, x.2.Pairwise (fun p p' => p.ts.toNat < p'.ts.toNat) ∧ ∀ p ∈ x.2, (200#64).toNat ≤ p.ts.toNat ∧ p.ts.toNat ≤ (1650#64).toNat := by
  refine C65_partial B idealHash _ (by decide) 1000#64 100#64 exLife ⟨exWf, ⟨by decide +kernel, by decide⟩, exWf, ⟨fun _ => List.reverse_perm _, by decide +kernel, by decide⟩, exWf, trivial⟩
    ⟨trivial, trivial, trivial, by decide +kernel, trivial, trivial⟩ ⟨trivial, by decide +kernel, trivial, by decide +kernel, trivial, trivial⟩ (by decide) _ exWf.wf _ _
    (by decide) ?_ (idealHash_good _)
  intro c hc ls
  have e : ((Gens.fresh 1000#64 100#64).run 1000#64 exLife).all =
      [⟨100#64, 1100#64, 1100#64, [([lbl "a" "1"], ⟨300#64, 4#64⟩)]⟩, ⟨1101#64, 2101#64, 1500#64, [([lbl "a" "1"], ⟨1200#64, 5#64⟩)]⟩,
        ⟨1500#64, 2500#64, 2500#64, [([lbl "a" "1"], ⟨1600#64, 6#64⟩)]⟩] := by rfl
  rw [e] at hc
  simp only [List.mem_cons, List.not_mem_nil, or_false] at hc
  rcases hc with rfl | rfl | rfl <;> exact incr_pointsFor (by unfold SIncr; decide +kernel) ls

end Verif
