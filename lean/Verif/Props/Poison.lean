import Verif.Model.DbLock
import Verif.Props.Db
/-! Property C70: a call that panics must not take the rest of the database with it. -/
namespace Verif
open List

/-! ### One chunk -/

/-- An insert that panics leaves the chunk unusable: every later insert (also of points outside the window), every later
query and the close panic. Every backend, chunk, label set and point. -/
theorem C70_chunk_dead {σ : Type} (C : Comp σ) (c : Chunk σ) (ls : Labels) (p : TimePoint) (h : (c.insert C ls p).1 = .panic) :
    (∀ ls' p', ((c.insert C ls p).2.insert C ls' p').1 = .panic ∧ ((c.insert C ls p).2.insert C ls' p').2 = (c.insert C ls p).2) ∧
    (∀ q a b, (c.insert C ls p).2.query C q a b = .panic) ∧ (c.insert C ls p).2.close.1 = .panic := by
  have hp : (c.insert C ls p).2.poisoned = true := by
    unfold Chunk.insert at h ⊢
    by_cases h1 : c.poisoned
    · rw [if_pos h1]; exact h1
    · rw [if_neg h1] at h ⊢
      by_cases h2 : c.isInRange p.ts
      · rw [if_pos h2] at h ⊢
        unfold Chunk.seal at h ⊢
        rcases h3 : (c.insertBody C ls p).1 with _ | _ | _
        · rw [h3] at h; simp only at h; rw [h3] at h; cases h
        · rw [h3] at h; simp only at h; rw [h3] at h; cases h
        · rfl
      · rw [if_neg h2] at h; cases h
  refine ⟨fun ls' p' => ?_, fun q a b => ?_, ?_⟩
  · generalize (c.insert C ls p).2 = c' at hp
    unfold Chunk.insert; rw [if_pos hp]; exact ⟨rfl, rfl⟩
  · unfold Chunk.query; rw [if_pos hp]
  · unfold Chunk.close; rw [if_pos hp]

/-! ### The sled database never gets there -/

theorem sled_insert_calm (B : BinSearch) (c : SChunk) (hc : c.poisoned = false) (ls : Labels) (p : TimePoint) :
    (c.insert (sledComp B) ls p).1 ≠ .panic ∧ (c.insert (sledComp B) ls p).2.poisoned = false := by
  have hw : ∀ kv i, (sledWrite kv i p).1 = .ok () := by
    intro kv i; unfold sledWrite; split <;> rfl
  have hb : ∀ kv, sledByLabels kv ls ≠ .panic := by
    intro kv; unfold sledByLabels; split
    · unfold parseId
      rename_i v _
      rcases parseUnsigned 10 (2 ^ 64 - 1) v with _ | n <;> simp [Res.ofErr, Res.bind]
    · simp
  have hcr : ∀ kv i, (sledCreate kv ls i).1 ≠ .panic := by
    intro kv i; unfold sledCreate; split <;> simp
  have body : (c.insertBody (sledComp B) ls p).1 ≠ .panic ∧ (c.insertBody (sledComp B) ls p).2.poisoned = false := by
    unfold Chunk.insertBody
    show (match sledByLabels c.store.idx ls with | .err e => _ | .panic => _ | .ok none => _ | .ok (some i) => _ : Res Unit × SChunk).1 ≠ _ ∧ _
    have hb' := hb c.store.idx
    simp only [sledComp, hw]
    rcases hbl : sledByLabels c.store.idx ls with (_ | i) | e | _
    · simp only
      have := hcr c.store.idx (idNext c.nextId).1
      rcases h1 : (sledCreate c.store.idx ls (idNext c.nextId).1).1 with _ | _ | _
      · exact ⟨by simp, hc⟩
      · exact ⟨by simp, hc⟩
      · exact absurd h1 this
    · exact ⟨by simp, hc⟩
    · exact ⟨by simp, hc⟩
    · exact absurd hbl hb'
  unfold Chunk.insert
  rw [if_neg (by rw [hc]; simp)]
  by_cases h2 : c.isInRange p.ts
  · rw [if_pos h2]
    unfold Chunk.seal
    rcases h3 : (c.insertBody (sledComp B) ls p).1 with _ | _ | _
    · simp only; rw [h3]; exact ⟨by simp, body.2⟩
    · simp only; rw [h3]; exact ⟨by simp, body.2⟩
    · exact absurd h3 body.1
  · rw [if_neg h2]; exact ⟨by simp, hc⟩

/-- Nothing in the database is poisoned. -/
def LockedDb.healthy {σ : Type} (d : LockedDb σ) : Prop := d.poisoned = false ∧ d.cur.poisoned = false ∧ ∀ c ∈ d.old, c.poisoned = false

theorem insertEach_calm {σ : Type} (C : Comp σ) (ls : Labels) (hC : ∀ (c : Chunk σ) p, c.poisoned = false → (c.insert C ls p).1 ≠ .panic ∧ (c.insert C ls p).2.poisoned = false)
    (ps : List TimePoint) : ∀ c : Chunk σ, c.poisoned = false → (insertEach C c ls ps).1 ≠ .panic ∧ (insertEach C c ls ps).2.poisoned = false := by
  induction ps with
  | nil => intro c hc; exact ⟨by simp [insertEach], hc⟩
  | cons p ps ih =>
    intro c hc
    have h1 := hC c p hc
    unfold insertEach
    rcases hi : c.insert C ls p with ⟨r, c'⟩
    rw [hi] at h1
    have h2 := ih c' h1.2
    rcases r with _ | e | _
    · exact h2
    · simp only
      rcases he : insertEach C c' ls ps with ⟨r', c''⟩
      rw [he] at h2
      rcases r' with _ | _ | _
      · exact ⟨by simp, h2.2⟩
      · exact ⟨by simp, h2.2⟩
      · exact absurd rfl h2.1
    · exact absurd rfl h1.1

theorem sled_write_calm (B : BinSearch) (c : SChunk) (hc : c.poisoned = false) (ls : Labels) (ps : List TimePoint) :
    (writeTimePoints (sledComp B) c ls ps).1 ≠ .panic ∧ (writeTimePoints (sledComp B) c ls ps).2.poisoned = false := by
  have h := insertEach_calm (sledComp B) ls (fun c p hc => sled_insert_calm B c hc ls p) (ps.filter (keepPoint c.start_ c.end_)) c hc
  unfold writeTimePoints
  rcases he : insertEach (sledComp B) c ls (ps.filter (keepPoint c.start_ c.end_)) with ⟨r, c'⟩
  rw [he] at h
  rcases r with (_ | n) | e | _
  · exact ⟨by simp, h.2⟩
  · exact ⟨by simp, h.2⟩
  · exact ⟨by simp, h.2⟩
  · exact absurd rfl h.1

/-- The chunks handed to swaps are new ones. -/
def FreshSwaps {σ : Type} (xs : List (DbCall σ)) : Prop := ∀ new, DbCall.swap new ∈ xs → new.poisoned = false

theorem call_calm (B : BinSearch) (H : Hash) {d : LockedDb SledStores} (hd : d.healthy) (x : DbCall SledStores)
    (hx : ∀ new, x = .swap new → new.poisoned = false) : (d.call (sledComp B) H x).2.healthy ∧
      ((d.call (sledComp B) H x).1.panicked = true → ∃ q a b, x = .query q a b) := by
  obtain ⟨h1, h2, h3⟩ := hd
  rcases x with ⟨ls, ps⟩ | ⟨ls, p⟩ | ⟨q, a, b⟩ | new
  · have := sled_write_calm B d.cur h2 ls ps
    simp only [LockedDb.call, LockedDb.write, h1, Bool.false_eq_true, if_false]
    refine ⟨⟨rfl, this.2, h3⟩, fun hp => ?_⟩
    rcases hr : (writeTimePoints (sledComp B) d.cur ls ps).1 with _ | _ | _ <;> rw [hr] at hp this <;> simp [DbReturn.panicked] at hp this
  · have := sled_insert_calm B d.cur h2 ls p
    simp only [LockedDb.call, LockedDb.writeOne, writeTimePoint, h1, Bool.false_eq_true, if_false]
    refine ⟨⟨rfl, this.2, h3⟩, fun hp => ?_⟩
    rcases hr : (d.cur.insert (sledComp B) ls p).1 with _ | _ | _ <;> rw [hr] at hp this <;> simp [DbReturn.panicked] at hp this
  · exact ⟨⟨h1, h2, h3⟩, fun _ => ⟨q, a, b, rfl⟩⟩
  · simp only [LockedDb.call, LockedDb.swap, h1, Chunk.close, h2, Bool.false_eq_true, if_false]
    refine ⟨⟨rfl, hx new rfl, ?_⟩, by simp [DbReturn.panicked]⟩
    intro c hc
    rcases List.mem_append.mp hc with hc | hc
    · exact h3 c hc
    · simp only [List.mem_singleton] at hc; rw [hc]

theorem calls_calm (B : BinSearch) (H : Hash) (xs : List (DbCall SledStores)) : ∀ d : LockedDb SledStores, d.healthy → FreshSwaps xs →
    (d.calls (sledComp B) H xs).2.healthy := by
  induction xs with
  | nil => intro d hd _; exact hd
  | cons x xs ih =>
    intro d hd hf
    exact ih _ (call_calm B H hd x (fun new e => hf new (by rw [e]; simp))).1 (fun new hn => hf new (List.mem_cons_of_mem _ hn))

/-- Sled database, any sequence of calls with any labels (well formed or not), points, ranges and swaps (queries that panic
included, see C26): whatever happened before, writes and swaps do not panic. -/
theorem C70_sled_writes_survive (B : BinSearch) (H : Hash) (cur : SChunk) (old : List SChunk) (hc : cur.poisoned = false)
    (ho : ∀ c ∈ old, c.poisoned = false) (xs : List (DbCall SledStores)) (hf : FreshSwaps xs) (x : DbCall SledStores)
    (hx : ∀ q a b, x ≠ .query q a b) (hn : ∀ new, x = .swap new → new.poisoned = false) :
    ((((LockedDb.open cur old).calls (sledComp B) H xs).2).call (sledComp B) H x).1.panicked = false := by
  have h := calls_calm B H xs _ (show (LockedDb.open cur old).healthy from ⟨rfl, hc, ho⟩) hf
  have := (call_calm B H h x hn).2
  by_contra hne
  obtain ⟨q, a, b, e⟩ := this (by simpa using hne)
  exact hx q a b e

/-! ### TiKV -/

/-- One call after which everything panics. -/
theorem C70_db_dead {σ : Type} (C : Comp σ) (H : Hash) (d : LockedDb σ) (h : d.poisoned = true) (xs : List (DbCall σ)) :
    ∀ r ∈ (d.calls C H xs).1, r.panicked = true := by
  induction xs with
  | nil => intro r hr; cases hr
  | cons x xs ih =>
    have e : (d.call C H x).2 = d ∧ (d.call C H x).1.panicked = true := by
      rcases x with ⟨ls, ps⟩ | ⟨ls, p⟩ | ⟨q, a, b⟩ | new
      · simp [LockedDb.call, LockedDb.write, h, DbReturn.panicked]
      · simp [LockedDb.call, LockedDb.writeOne, h, DbReturn.panicked]
      · simp [LockedDb.call, LockedDb.query, h, DbReturn.panicked]
      · simp [LockedDb.call, LockedDb.swap, h, DbReturn.panicked]
    intro r hr
    simp only [LockedDb.calls, List.mem_cons] at hr
    rcases hr with rfl | hr
    · exact e.2
    · rw [e.1] at hr; exact ih r hr

/-- A chunk insert that panics, in any database with any backend: the call panics, every query and every one-point write
until the next swap panics, the swap panics too, and from then on every call panics, for ever. -/
theorem C70_violated_spread {σ : Type} (C : Comp σ) (H : Hash) (d : LockedDb σ) (hd : d.poisoned = false) (ls : Labels) (p : TimePoint)
    (h : (d.cur.insert C ls p).1 = .panic) (new : Chunk σ) (xs : List (DbCall σ)) :
    (d.call C H (.writeOne ls p)).1.panicked = true ∧
    (∀ ls' p', ((d.call C H (.writeOne ls p)).2.call C H (.writeOne ls' p')).1.panicked = true) ∧
    (∀ q a b, ((d.call C H (.writeOne ls p)).2.call C H (.query q a b)).1.panicked = true) ∧
    ∀ r ∈ (((d.call C H (.writeOne ls p)).2).calls C H (.swap new :: xs)).1, r.panicked = true := by
  obtain ⟨h1, h2, h3⟩ := C70_chunk_dead C d.cur ls p h
  have e1 : d.call C H (.writeOne ls p) = (.done .panic, { d with cur := (d.cur.insert C ls p).2 }) := by
    simp [LockedDb.call, LockedDb.writeOne, writeTimePoint, hd, h]
  rw [e1]
  refine ⟨rfl, fun ls' p' => ?_, fun q a b => ?_, ?_⟩
  · simp [LockedDb.call, LockedDb.writeOne, writeTimePoint, hd, (h1 ls' p').1, DbReturn.panicked]
  · simp [LockedDb.call, LockedDb.query, hd, dbQuery, queryCurrent, Chunk.view, h2 q a b, DbReturn.panicked]
  · intro r hr
    have e2 : (LockedDb.swap { d with cur := (d.cur.insert C ls p).2 } new).1 = .panic ∧
        (LockedDb.swap { d with cur := (d.cur.insert C ls p).2 } new).2.poisoned = true := by
      unfold LockedDb.swap
      simp only [hd, Bool.false_eq_true, if_false]
      rcases hc : (d.cur.insert C ls p).2.close with ⟨r, c⟩
      rw [hc] at h3
      simp only at h3
      subst h3
      exact ⟨rfl, rfl⟩
    simp only [LockedDb.calls, LockedDb.call, List.mem_cons] at hr
    rcases hr with rfl | hr
    · rw [e2.1]; rfl
    · exact C70_db_dead C H _ e2.2 xs r hr

/-- A TiKV database with two accepted series. -/
def exPoisonDb : LockedDb KV :=
  LockedDb.open ((Chunk.new KV.empty 0#64 1000#64).insertAll (tikvComp stdBinSearch (List.replicate 32 1#8) [])
    [([lbl "host" "a"], ⟨10#64, 5#64⟩), ([lbl "host" "a", lbl "job" "b"], ⟨20#64, 5#64⟩)]) []

/-- C70 is violated: on a TiKV database holding `{host=a}` and `{host=a, job=b}`, writing one point of `{Rhost=a}` panics;
from then on no write or query of any series succeeds, and after the next swap every call panics for ever. -/
theorem C70_violated (H : Hash) (new : Chunk KV) (xs : List (DbCall KV)) :
    let C := tikvComp stdBinSearch (List.replicate 32 1#8) []
    let d := (exPoisonDb.call C H (.writeOne [lbl "Rhost" "a"] ⟨30#64, 5#64⟩)).2
    exPoisonDb.poisoned = false ∧ exPoisonDb.cur.poisoned = false ∧
    (∀ ls p, (d.call C H (.writeOne ls p)).1.panicked = true) ∧ (∀ q a b, (d.call C H (.query q a b)).1.panicked = true) ∧
    ∀ r ∈ (d.calls C H (.swap new :: xs)).1, r.panicked = true := by
  intro C d
  have h : (exPoisonDb.cur.insert C [lbl "Rhost" "a"] ⟨30#64, 5#64⟩).1 = .panic := by decide +kernel
  have := C70_violated_spread C H exPoisonDb rfl [lbl "Rhost" "a"] ⟨30#64, 5#64⟩ h new xs
  exact ⟨rfl, by decide +kernel, this.2.1, this.2.2.1, this.2.2.2⟩

/-- The part of C70 that holds on TiKV: inserts of well-formed label sets never panic and never poison the chunk. -/
theorem C70_tikv_partial (B : BinSearch) (ipre spre : Str) (hp : spre.length + 8 ≤ ipre.length) (kv : KV) (hk : Unused ipre spre kv)
    (lo hi : U64) (h : Inserts) (hf : Fine h) (ls : Labels) (hls : WFSet ls) (p : TimePoint) :
    (((Chunk.new kv lo hi).insertAll (tikvComp B ipre spre) h).insert (tikvComp B ipre spre) ls p).1 ≠ .panic ∧
    (((Chunk.new kv lo hi).insertAll (tikvComp B ipre spre) h).insert (tikvComp B ipre spre) ls p).2.poisoned = false := by
  have hl := insideOnly_length lo hi h
  have hr := tikv_rep B hp hk lo hi hf
  have := hr.insert (by have := hf.len; omega) hls p
  by_cases hin : inside lo hi p
  · rw [if_pos hin] at this
    exact ⟨by rw [this.1]; simp, this.2.1.ok⟩
  · rw [if_neg hin] at this
    rw [this]
    exact ⟨by simp, hr.ok⟩

example : (((Chunk.new KV.empty 0#64 1000#64).insertAll (tikvComp stdBinSearch (List.replicate 32 1#8) []) exIns).insert
    (tikvComp stdBinSearch (List.replicate 32 1#8) []) [lbl "host" "a"] ⟨30#64, 5#64⟩).1 ≠ .panic :=
  (C70_tikv_partial _ _ _ (by decide) _ ⟨fun _ => rfl, fun _ => rfl⟩ _ _ _ exIns_fine _ (wfSet_of (by decide +kernel)) _).1

/-- Non-vacuity of the sled theorem: a write, a panicking query (inverted range) and a swap, then a write of `{Rhost=a}`. -/
example : ((((LockedDb.open (newSled 0#64 1000#64) []).calls (sledComp stdBinSearch) idealHash
    [.write [lbl "host" "a"] [⟨10#64, 5#64⟩, ⟨20#64, 5#64⟩, ⟨30#64, 5#64⟩], .query [lbl "host" "a"] 25#64 15#64, .swap (newSled 1001#64 2001#64)]).2).call
      (sledComp stdBinSearch) idealHash (.writeOne [lbl "Rhost" "a"] ⟨1500#64, 5#64⟩)).1.panicked = false :=
  C70_sled_writes_survive stdBinSearch idealHash _ _ rfl (by simp) _ (by intro new hn; simp at hn; rw [hn]; rfl) _ (by intro q a b; simp)
    (by intro new e; cases e)

end Verif
